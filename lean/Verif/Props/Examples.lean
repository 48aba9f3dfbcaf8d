import Verif.Model.StdLexer
import Verif.Proofs.DocCheck
import Verif.Proofs.LineItems
import Verif.Props.Eq
import Verif.Props.Errstr
import Verif.Spec.ExampleDocs
import Verif.Spec.Examples
/-
The programs in examples/: C66, C67.
-/
namespace Verif.Props
open Verif Verif.Spec

/-! ### C66 -/

/-- What one round of examples/bootstrap.rs gives. -/
def Round (L : Lexer) (rules : Syntax) (source : Str) (r : Option Syntax) : Prop :=
  (∃ e toks, Parses L rules source [] Indent.default (.err e toks) ∧ r = none) ∨
  ∃ data ignored, Parses L rules source [] Indent.default (.ok data) ∧ Converts data [] r ignored

theorem parse_at {L : Lexer} {syn : Syntax} {text : Str} {o : POut} (h : Parses L syn text [] Indent.default o) :
    ∃ n, ∀ m, n ≤ m → parse L m syn text [] = o := by
  obtain ⟨h0, n, rfl⟩ := h
  exact ⟨n, fun m hm => parse_mono hm h0⟩

theorem parses_of {L : Lexer} {n : Nat} {syn : Syntax} {text : Str} {o : POut} (h : parse L n syn text [] = o)
    (ho : o ≠ .timeout) : Parses L syn text [] Indent.default o := ⟨ho, n, h⟩

theorem convert_at {data : List Tok} {r : Option Syntax} {ig : List Range} (h : Converts data [] r ig) :
    ∃ n, ∀ m, n ≤ m → convert m data [] = .ok (r, ig) := by
  obtain ⟨n, h⟩ := h
  exact ⟨n, fun m hm => by rw [convert_mono hm (by rw [h]; simp), h]⟩

theorem bootstrapRound_round {L : Lexer} {n : Nat} {rules : Syntax} {source : Str} {r : Option Syntax}
    (h : bootstrapRound L n rules source = .ok r) : Round L rules source r := by
  unfold bootstrapRound at h
  split at h
  · cases h
  · cases h
  · rename_i e t hp
    exact .inl ⟨e, t, parses_of hp (by simp), (Comp.pure_ok.1 h).symm⟩
  · rename_i data hp
    obtain ⟨⟨res, ig⟩, h1, h2⟩ := Comp.bind_ok.1 h
    cases Comp.pure_ok.1 h2
    exact .inr ⟨data, ig, parses_of hp (by simp), n, h1⟩

theorem bootstrapRound_iff {L : Lexer} {rules : Syntax} {source : Str} {r : Option Syntax} :
    (∃ n, ∀ m, n ≤ m → bootstrapRound L m rules source = .ok r) ↔ Round L rules source r := by
  constructor
  · rintro ⟨n, h⟩
    exact bootstrapRound_round (h n (Nat.le_refl _))
  · rintro (⟨e, t, h, rfl⟩ | ⟨data, ig, h, hc⟩)
    · obtain ⟨n, hn⟩ := parse_at h
      exact ⟨n, fun m hm => by simp [bootstrapRound, hn m hm, pure]⟩
    · obtain ⟨n, hn⟩ := parse_at h
      obtain ⟨k, hk⟩ := convert_at hc
      refine ⟨max n k, fun m hm => ?_⟩
      simp only [bootstrapRound, hn m (by omega)]
      exact Comp.bind_ok.2 ⟨_, hk m (by omega), rfl⟩

/-- How examples/bootstrap.rs ends, for any text: the hard-coded rules read the text, the rules so
made read it, and the rules made by these read it; the rules of the two rounds are compared. -/
theorem C66_bootstrap_iff {L : Lexer} {source : Str} {b : Bootstrapped} :
    BootstrapEnds L source b ↔
      (Round L bootstrapRules source none ∧ b = .notRead) ∨
      ∃ rules1, Round L bootstrapRules source (some rules1) ∧
        ((Round L rules1 source none ∧ b = .notRead) ∨
         ∃ rules2, Round L rules1 source (some rules2) ∧
          ((∃ e toks, Parses L rules2 source [] Indent.default (.err e toks) ∧ b = .notRead) ∨
           ∃ data, Parses L rules2 source [] Indent.default (.ok data) ∧ b = .compared (rules1.peq rules2))) := by
  constructor
  · rintro ⟨n, h⟩
    obtain ⟨x, h1, h⟩ := Comp.bind_ok.1 h
    cases x with
    | none => exact .inl ⟨bootstrapRound_round h1, (Comp.pure_ok.1 h).symm⟩
    | some r1 =>
      obtain ⟨y, h2, h⟩ := Comp.bind_ok.1 h
      refine .inr ⟨r1, bootstrapRound_round h1, ?_⟩
      cases y with
      | none => exact .inl ⟨bootstrapRound_round h2, (Comp.pure_ok.1 h).symm⟩
      | some r2 =>
        refine .inr ⟨r2, bootstrapRound_round h2, ?_⟩
        simp only at h
        split at h
        · cases h
        · cases h
        · rename_i e t hp
          exact .inl ⟨e, t, parses_of hp (by simp), (Comp.pure_ok.1 h).symm⟩
        · rename_i data hp
          exact .inr ⟨data, parses_of hp (by simp), (Comp.pure_ok.1 h).symm⟩
  · rintro (⟨h1, rfl⟩ | ⟨r1, h1, ⟨h2, rfl⟩ | ⟨r2, h2, h3⟩⟩)
    · obtain ⟨n, hn⟩ := bootstrapRound_iff.2 h1
      exact ⟨n, Comp.bind_ok.2 ⟨_, hn n (Nat.le_refl _), rfl⟩⟩
    · obtain ⟨n, hn⟩ := bootstrapRound_iff.2 h1
      obtain ⟨k, hk⟩ := bootstrapRound_iff.2 h2
      exact ⟨max n k, Comp.bind_ok.2 ⟨_, hn _ (by omega), Comp.bind_ok.2 ⟨_, hk _ (by omega), rfl⟩⟩⟩
    · obtain ⟨n, hn⟩ := bootstrapRound_iff.2 h1
      obtain ⟨k, hk⟩ := bootstrapRound_iff.2 h2
      rcases h3 with ⟨e, t, h3, rfl⟩ | ⟨data, h3, rfl⟩
      · obtain ⟨l, hl⟩ := parse_at h3
        refine ⟨max n (max k l), Comp.bind_ok.2 ⟨_, hn _ (by omega), Comp.bind_ok.2 ⟨_, hk _ (by omega), ?_⟩⟩⟩
        simp [hl _ (show l ≤ max n (max k l) by omega), pure]
      · obtain ⟨l, hl⟩ := parse_at h3
        refine ⟨max n (max k l), Comp.bind_ok.2 ⟨_, hn _ (by omega), Comp.bind_ok.2 ⟨_, hk _ (by omega), ?_⟩⟩⟩
        simp [hl _ (show l ≤ max n (max k l) by omega), pure]

theorem readSyntax_at {L : Lexer} {text : Str} {r : Except RErr Syntax} (h : SyntaxReturns L text r) :
    ∃ n, ∀ m, n ≤ m → readSyntax L m text = .ok r := by
  obtain ⟨n, h⟩ := h
  exact ⟨n, fun m hm => by rw [(readSyntax_le hm text).eq (by rw [h]; simp), h]⟩

/-- How examples/bootstrap_old.rs ends, for any two texts: `syntax` reads the first, the rules read
the second, and both syntaxes are compared. -/
theorem C66_bootstrap_old_iff {L : Lexer} {old oldInOld : Str} {b : Bootstrapped} :
    BootstrapOldEnds L old oldInOld b ↔
      (∃ e, SyntaxReturns L old (.error e) ∧ b = .notRead) ∨
      ∃ syn, SyntaxReturns L old (.ok syn) ∧
        ((Round L syn oldInOld none ∧ b = .notRead) ∨
         ∃ syn', Round L syn oldInOld (some syn') ∧ b = .compared (syn.peq syn')) := by
  have key : ∀ n, bootstrapOldMain L n old oldInOld = (readSyntax L n old >>= fun x =>
      match x with
      | .error _ => pure .notRead
      | .ok syn => bootstrapRound L n syn oldInOld >>= fun y =>
        match y with
        | none => pure .notRead
        | some syn' => pure (.compared (syn.peq syn'))) := by
    intro n
    unfold bootstrapOldMain
    congr 1
    funext x
    cases x with
    | error e => rfl
    | ok syn =>
      simp only [bootstrapRound]
      cases parse L n syn oldInOld [] with
      | timeout => rfl
      | panic => rfl
      | err e t => rfl
      | ok data =>
        simp only
        cases convert n data [] with
        | ok x => rfl
        | panic => rfl
        | timeout => rfl
  constructor
  · rintro ⟨n, h⟩
    rw [key] at h
    obtain ⟨x, h1, h⟩ := Comp.bind_ok.1 h
    cases x with
    | error e => exact .inl ⟨e, ⟨n, h1⟩, (Comp.pure_ok.1 h).symm⟩
    | ok syn =>
      obtain ⟨y, h2, h⟩ := Comp.bind_ok.1 h
      refine .inr ⟨syn, ⟨n, h1⟩, ?_⟩
      cases y with
      | none => exact .inl ⟨bootstrapRound_round h2, (Comp.pure_ok.1 h).symm⟩
      | some syn' => exact .inr ⟨syn', bootstrapRound_round h2, (Comp.pure_ok.1 h).symm⟩
  · rintro (⟨e, ⟨n, h⟩, rfl⟩ | ⟨syn, h, ⟨h2, rfl⟩ | ⟨syn', h2, rfl⟩⟩)
    · exact ⟨n, by rw [key]; exact Comp.bind_ok.2 ⟨_, h, rfl⟩⟩
    all_goals
      obtain ⟨n, hn⟩ := readSyntax_at h
      obtain ⟨k, hk⟩ := bootstrapRound_iff.2 h2
      exact ⟨max n k, by
        rw [key]; exact Comp.bind_ok.2 ⟨_, hn _ (by omega), Comp.bind_ok.2 ⟨_, hk _ (by omega), rfl⟩⟩⟩

theorem convert_det {data : List Tok} {r r' : Option Syntax} {i i' : List Range} (h : Converts data [] r i)
    (h' : Converts data [] r' i') : r = r' ∧ i = i' := by
  obtain ⟨n, hn⟩ := convert_at h
  obtain ⟨m, hm⟩ := convert_at h'
  have := (hn (max n m) (by omega)).symm.trans (hm (max n m) (by omega))
  cases this
  exact ⟨rfl, rfl⟩

theorem round_det {L : Lexer} {syn : Syntax} {text : Str} {r r' : Option Syntax} (h : Round L syn text r)
    (h' : Round L syn text r') : r = r' := by
  rcases h with ⟨e, t, h, rfl⟩ | ⟨d, i, h, hc⟩ <;> rcases h' with ⟨e', t', h', rfl⟩ | ⟨d', i', h', hc'⟩
  · rfl
  · cases parses_det h h'
  · cases parses_det h h'
  · cases parses_det h h'
    exact (convert_det hc hc').1

/-- C66: the assertion of examples/bootstrap.rs holds. -/
theorem C66_bootstrap {L : Lexer} (hL : L.Lawful) (hs : NoSlash L) (hN : ReadsNumbers L) :
    ∀ b, BootstrapEnds L selfText b ↔ b = .compared true := by
  obtain ⟨data, hp, hd⟩ := text_writes hL hs (C63_stands_for hL hN)
  obtain ⟨l, -, hc⟩ := C40_undefined_dropped self_small hd []
  rw [selfRead_eq] at hc
  have hp' : Parses L (syntaxOf selfRead) selfText [] Indent.default (.ok data) :=
    (C61_accepts C63_hard_coded.1 _ _ _).1 hp
  have h1 : Round L bootstrapRules selfText (some (syntaxOf selfRead)) := .inr ⟨data, _, hp, hc⟩
  have h2 : Round L (syntaxOf selfRead) selfText (some (syntaxOf selfRead)) := .inr ⟨data, _, hp', hc⟩
  have he : (syntaxOf selfRead).peq (syntaxOf selfRead) = true := by decide +kernel
  intro b
  rw [C66_bootstrap_iff]
  constructor
  · rintro (⟨h, -⟩ | ⟨r1, h, ⟨h', -⟩ | ⟨r2, h', ⟨e, t, h3, -⟩ | ⟨_, -, rfl⟩⟩⟩)
    · cases round_det h h1
    · cases round_det h h1; cases round_det h' h2
    · cases round_det h h1; cases round_det h' h2
      cases parses_det h3 hp'
    · cases round_det h h1; cases round_det h' h2
      rw [he]
  · rintro rfl
    exact .inr ⟨_, h1, .inr ⟨_, h2, .inr ⟨data, hp', by rw [he]⟩⟩⟩

/-- C66: the assertion of examples/bootstrap_old.rs fails whenever the optimizer has put a look-up table
into the rules of the first text. -/
theorem C66_bootstrap_old_no_tables {L : Lexer} {old oldInOld : Str}
    (h : BootstrapOldEnds L old oldInOld (.compared true)) {syn : Syntax} (hs : SyntaxReturns L old (.ok syn)) :
    ∀ x, Part syn.rules x → ¬ IsTable x := by
  rcases C66_bootstrap_old_iff.1 h with ⟨_, _, h⟩ | ⟨syn', h1, ⟨-, h⟩ | ⟨syn'', -, h⟩⟩
  · cases h
  · cases h
  · have e : syn' = syn := by
      obtain ⟨n, hn⟩ := readSyntax_at h1
      obtain ⟨m, hm⟩ := readSyntax_at hs
      have := (hn (max n m) (by omega)).symm.trans (hm (max n m) (by omega))
      cases this
      rfl
    subst e
    have hq : syn'.peq syn'' = true := by injection h with h; exact h.symm
    obtain ⟨rfl, -⟩ := C45_syntax_sound hq
    exact (C45_syntax_reflexive_iff syn').1 hq

/-- The rules that assets/old-syntax.txt stands for. -/
def oldRead : List (Str × Rule) := ((Doc.read oldDoc.strings oldDoc.nodes).1).getD []

theorem oldRead_eq : (Doc.read oldDoc.strings oldDoc.nodes).1 = some oldRead := by
  have h : (Doc.read oldDoc.strings oldDoc.nodes).1.isSome = true := by decide +kernel
  unfold oldRead
  cases e : (Doc.read oldDoc.strings oldDoc.nodes).1 with
  | none => rw [e] at h; cases h
  | some x => rfl

theorem old_small : ¬ oldDoc.Overflows := by decide +kernel

/-- assets/old-syntax.txt is in the notation of the meta language. -/
theorem C66_old_stands_for {L : Lexer} (hL : L.Lawful) (hN : ReadsNumbers L) : oldDoc.Text L oldSyntaxText :=
  eatDoc_text hL hN (ss := oldStrings) (ns := oldNodes) (by decide +kernel)

def isTableB : Rule → Bool
  | .fastSelect _ _ _ _ => true
  | _ => false

theorem old_ok : SyntaxOk (syntaxOf oldRead) := syntaxOf_ok oldRead_eq

theorem old_wellFormed : wellFormed (syntaxOf oldRead).rules = true := by decide +kernel

/-- The optimizer puts a table into the rule `opt`. -/
theorem old_table {syn : Syntax} (h : Optimizes (syntaxOf oldRead) syn) : ∃ x, Part syn.rules x ∧ IsTable x := by
  have key : (match (syntaxOf oldRead).optimize 50 with
      | .ok s => s.rules.any isTableB
      | _ => false) = true := by decide +kernel
  split at key
  · rename_i s hs
    cases C31_deterministic h ⟨50, hs⟩
    obtain ⟨r, hr, ht⟩ := List.any_eq_true.1 key
    refine ⟨r, ⟨r, hr, .refl⟩, ?_⟩
    unfold isTableB at ht
    split at ht
    · exact ⟨_, _, _, _, rfl⟩
    · cases ht
  · cases key

theorem old_returns {L : Lexer} (hL : L.Lawful) (hs : NoSlash L) (hN : ReadsNumbers L) :
    ∃ syn, Optimizes (syntaxOf oldRead) syn ∧ ∀ r, SyntaxReturns L oldSyntaxText r ↔ r = .ok syn := by
  obtain ⟨syn, ho⟩ := C31_returns_well_formed (C25_check_sound hL Indent.default old_wellFormed) old_ok
  refine ⟨syn, ho, fun r => ?_⟩
  rw [C49_meaning hL hs (C66_old_stands_for hL hN) old_small, oldRead_eq]
  constructor
  · rintro ⟨syn', ho', rfl⟩
    rw [C31_deterministic ho ho']
  · rintro rfl
    exact ⟨syn, ho, rfl⟩

/-- C66: with assets/old-syntax.txt the assertion of examples/bootstrap_old.rs cannot hold, whatever the
second text is: the rules of assets/old-syntax.txt are returned with tables. -/
theorem C66_bootstrap_old_fails {L : Lexer} (hL : L.Lawful) (hs : NoSlash L) (hN : ReadsNumbers L) (oldInOld : Str) :
    ¬ BootstrapOldEnds L oldSyntaxText oldInOld (.compared true) := by
  intro h
  obtain ⟨syn, ho, hr⟩ := old_returns hL hs hN
  obtain ⟨x, hx, ht⟩ := old_table ho
  exact C66_bootstrap_old_no_tables h ((hr _).2 rfl) x hx ht

/-- The entries of assets/old-self-syntax.txt with their meta data. -/
def oldStringItems : List (Str × List MetaData) := (oldSelfStrings.zip oldStrings).map fun p =>
  (p.1, nodeOf c!"string" [.string c!"name" p.2.1, .string c!"text" p.2.2])

def oldNodeItems : List (Str × List MetaData) := (oldSelfNodes.zip oldNodes).map fun p =>
  (p.1, nodeOf c!"node" (.f64 c!"id" p.2.2.1 :: .string c!"name" p.2.2.2.1 :: nodeOf c!"rule" p.2.2.2.2.data))

def oldStringRule : Rule := .node c!"string" (some c!"string") (some 0) 20001
def oldNodeRule : Rule := .node c!"node" (some c!"node") (some 1) 20003

/-- What follows the strings and the nodes of assets/old-self-syntax.txt. -/
def oldNodesText : Str := (itemsText oldNodeItems).drop 1 ++ ['\n']

def oldSplit : Nat := (itemsText oldStringItems).length

theorem old_last : (syntaxOf oldRead).rules.getLast? = some (.sequence [.lines oldStringRule false 20002,
    .lines oldNodeRule false 20004, .whitespace true 20005] 20006) := by
  have h : (match (syntaxOf oldRead).rules.getLast? with
    | some r => r.peq (.sequence [.lines oldStringRule false 20002, .lines oldNodeRule false 20004,
        .whitespace true 20005] 20006)
    | none => false) = true := by decide +kernel
  split at h
  · rename_i r e
    rw [e, C45_sound h]
  · cases h

set_option maxRecDepth 100000 in
theorem old_strings_ok : itemsOk (syntaxOf oldRead).rules oldStringRule 40 ('\n' :: oldNodesText) oldStringItems 0 0 =
    true := by decide +kernel

set_option maxRecDepth 100000 in
theorem old_nodes_ok : itemsOk (syntaxOf oldRead).rules oldNodeRule 40 ['\n'] oldNodeItems 0 oldSplit = true := by
  decide +kernel

set_option maxRecDepth 100000 in
theorem old_string_refused : ((runErr stdLexer (syntaxOf oldRead).rules 40 oldStringRule ⟨oldNodesText, oldSplit⟩
    Indent.default).map (·.2) == some Indent.default) = true := by decide +kernel

set_option maxRecDepth 100000 in
theorem old_self_split : oldSelfText = (itemsText oldStringItems).drop 1 ++ '\n' :: oldNodesText := by decide +kernel

set_option maxRecDepth 100000 in
theorem old_data : oldStringItems.flatMap (·.2) ++ oldNodeItems.flatMap (·.2) = oldDoc.data := by decide +kernel

theorem two_lines {L : Lexer} {syn : Syntax} {r r' : Rule} {id1 id2 id3 id4 : DebugId} {text s s' : Str} {n n' : Nat}
    {ts us : List Tok} {tr tr' : List RErr}
    (hl : syn.rules.getLast? = some (.sequence [.lines r false id1, .lines r' false id2, .whitespace true id3] id4))
    (ht : text = s ++ '\n' :: s') (hn : s.length + 1 = n) (hn' : n' = s'.length)
    (h : Run (envOf L syn.rules Indent.default) (.lines r false id1 true []) ⟨s ++ '\n' :: s', 0⟩ 0 (some (n, ts)) 0 tr)
    (h' : Run (envOf L syn.rules Indent.default) (.lines r' false id2 true []) ⟨s', n⟩ 0 (some (n', us)) 0 tr') :
    Parses L syn text [] Indent.default (.ok (ts ++ us)) := by
  subst ht hn hn'
  have e : adv ⟨s ++ '\n' :: s', 0⟩ (s.length + 1) = ⟨s', s.length + 1⟩ := by simp [adv, List.drop_append]
  refine parses_ok_run.2 ⟨_, s.length + 1 + (s'.length + 0), ts ++ (us ++ []), 0, tr ++ (tr' ++ []), hl, .sequence
    (.seq_cons (j := 0) (o := some (s'.length + 0, us ++ [])) (.lines h) (.seq_cons (j := 0) (o := some (0, []))
      (.lines (by rw [e]; exact h')) (.seq_cons (j := 0) (n := 0) (ts := []) (tr := []) (tr' := []) (o := some (0, []))
        (.ws_ok ?_ (fun _ => rfl)) .seq_nil))), by simp; omega, by simp⟩
  rw [e]
  simp [adv, Longest]

/-- The rules of the old meta language read the description of the old meta language in itself as the
document for which assets/old-syntax.txt stands. -/
theorem C66_old_reads_itself : ∃ toks, Parses stdLexer (syntaxOf oldRead) oldSelfText [] Indent.default (.ok toks) ∧
    toks.map (·.data) = oldDoc.data := by
  have hsl : 1 ≤ (itemsText oldStringItems).length := by decide +kernel
  have hnl : 1 ≤ (itemsText oldNodeItems).length := by decide +kernel
  have hnc : ∃ c s, oldNodesText = c :: s ∧ isWs c = false := ⟨_, _, rfl, by decide +kernel⟩
  -- the strings end where the nodes begin
  have hend1 : ∀ item, ∃ ts tr, Run (envOf stdLexer (syntaxOf oldRead).rules Indent.default)
      (.lines oldStringRule false 20002 false item) ⟨'\n' :: oldNodesText, oldSplit - 1⟩ 0 (some (1, ts)) 0 tr ∧
      ts.map (·.data) = [] := by
    intro item
    have hr := old_string_refused
    rw [beq_iff_eq, Option.map_eq_some_iff] at hr
    obtain ⟨⟨e, i⟩, h1, h2⟩ := hr
    cases h2
    obtain ⟨j, tr, h3, h4⟩ := refuses_iff.1 (refuses_of_eval 40 e h1)
    have : j = 0 := (congrArg Indent.indent h4).symm
    subst this
    obtain ⟨c, s, hc, hw⟩ := hnc
    refine ⟨[], tr, .lines_stop (k := 1) ?_ (.line_plain ?_), rfl⟩
    · have := std_lineNext_gap (first := false) (item := item) (gap := 1) (s := s) hw (.inl rfl)
      rw [← hc] at this
      exact this
    · have : adv ⟨'\n' :: oldNodesText, oldSplit - 1⟩ 1 = ⟨oldNodesText, oldSplit⟩ := by
        simp only [adv, oldSplit, List.drop_succ_cons, List.drop_zero]
        congr 1
      rw [this]
      exact h3
  have hend2 : ∀ item, ∃ ts tr, Run (envOf stdLexer (syntaxOf oldRead).rules Indent.default)
      (.lines oldNodeRule false 20004 false item)
      ⟨['\n'], oldSplit + ((itemsText oldNodeItems).length - 1)⟩ 0 (some (1, ts)) 0 tr ∧ ts.map (·.data) = [] := by
    intro item
    exact ⟨[], [], .lines_done (k := 1) rfl, rfl⟩
  obtain ⟨ts, tr, h1, hd1⟩ := lines_items hend1 oldStringItems 0 0 true [] old_strings_ok (by decide +kernel)
    (.inr ⟨rfl, rfl⟩) (by unfold oldSplit; omega)
  obtain ⟨us, tr', h2, hd2⟩ := lines_items hend2 oldNodeItems 0 oldSplit true [] old_nodes_ok (by decide +kernel)
    (.inr ⟨rfl, rfl⟩) (by omega)
  refine ⟨ts ++ us, two_lines old_last old_self_split ?_ ?_ h1 h2, ?_⟩
  · simp
  · simp [oldNodesText]
  · simp [hd1, hd2, ← old_data]

set_option maxRecDepth 100000 in
theorem old_tails : tailsOk (syntaxOf oldRead).rules 50 = true := by decide +kernel

/-- C66: with the files of the repository examples/bootstrap_old.rs comes to its assertion, and the
assertion fails. -/
theorem C66_bootstrap_old (b : Bootstrapped) :
    BootstrapOldEnds stdLexer oldSyntaxText oldSelfText b ↔ b = .compared false := by
  obtain ⟨syn, ho, hr⟩ := old_returns stdLexer_lawful stdLexer_noSlash std_readsNumbers
  obtain ⟨toks, hp, hd⟩ := C66_old_reads_itself
  have hp' := (C27_accepts_the_same_partial stdLexer_lawful ho
    (C27_check_sound stdLexer_lawful Indent.default old_wellFormed old_ok old_tails) _ _ _).1 hp
  obtain ⟨l, -, hc⟩ := C40_undefined_dropped old_small hd []
  rw [oldRead_eq] at hc
  have hround : Round stdLexer syn oldSelfText (some (syntaxOf oldRead)) := .inr ⟨toks, _, hp', hc⟩
  have hends : BootstrapOldEnds stdLexer oldSyntaxText oldSelfText (.compared (syn.peq (syntaxOf oldRead))) :=
    C66_bootstrap_old_iff.2 (.inr ⟨syn, (hr _).2 rfl, .inr ⟨_, hround, rfl⟩⟩)
  have hf : syn.peq (syntaxOf oldRead) = false := by
    cases hq : syn.peq (syntaxOf oldRead) with
    | false => rfl
    | true =>
      rw [hq] at hends
      exact absurd hends (C66_bootstrap_old_fails stdLexer_lawful stdLexer_noSlash std_readsNumbers _)
  rw [hf] at hends
  constructor
  · intro h
    rcases C66_bootstrap_old_iff.1 h with ⟨_, h, -⟩ | ⟨syn', h1, ⟨h2, -⟩ | ⟨syn'', h2, rfl⟩⟩
    · cases (hr _).1 h
    · cases (hr _).1 h1
      cases round_det h2 hround
    · cases (hr _).1 h1
      cases round_det h2 hround
      rw [hf]
  · rintro rfl
    exact hends

end Verif.Props
