import Verif.Proofs.PropertiesOpt
import Verif.Props.Optimize
import Verif.Props.Syntax
/-
C109: properties are for the data only.
-/
namespace Verif.Props
open Spec

theorem labels_any : Labels (fun _ _ => True) (fun _ _ => True) :=
  ⟨trivial, fun _ _ => trivial, fun _ _ _ _ => trivial, fun _ _ _ _ => trivial, fun _ _ _ _ => trivial,
    fun _ _ _ _ => trivial⟩

theorem labels_map (f : Str → Option Str) :
    Labels (fun q q' => q' = q.bind f) (fun ts ts' => ts' = ts.filterMap (relabelItem f)) := by
  refine ⟨rfl, ?_, ?_, ?_, ?_, ?_⟩
  · rintro a a' b b' rfl rfl
    simp
  · rintro q q' off len v rfl
    cases q with
    | none => rfl
    | some n => cases h : f n <;> simp [named, relabelItem, h]
  · rintro q q' off len v rfl
    cases q with
    | none => rfl
    | some n => cases h : f n <;> simp [named, relabelItem, h]
  · rintro q q' off len v rfl
    cases q with
    | none => rfl
    | some n => cases h : f n <;> simp [named, relabelItem, h]
  · rintro q q' ts ts' off len rfl rfl
    cases q with
    | none => rfl
    | some n => cases h : f n <;> simp [wrapped, relabelItem, h]

mutual
theorem relabelled_map (f : Str → Option Str) : ∀ r, Relabelled (fun q q' => q' = q.bind f) r (relabel f r)
  | .whitespace _ _ => .whitespace
  | .tag _ _ _ _ _ => .tag rfl
  | .untilAny _ _ _ _ => .untilAny rfl
  | .untilAnyOrWs _ _ _ _ => .untilAnyOrWs rfl
  | .text _ _ _ => .text rfl
  | .number _ _ _ => .number rfl
  | .node _ _ _ _ => .node rfl
  | .select rs _ => .select (relabelledL_map f rs)
  | .fastSelect _ rs _ _ => .fastSelect (relabelledL_map f rs)
  | .sequence rs _ => .sequence (relabelledL_map f rs)
  | .separateBy r b _ _ _ => .separateBy (relabelled_map f r) (relabelled_map f b)
  | .repeat_ r _ _ => .repeat_ (relabelled_map f r)
  | .lines r _ _ => .lines (relabelled_map f r)
  | .optional r _ => .optional (relabelled_map f r)
  | .not r _ => .not (relabelled_map f r)
theorem relabelledL_map (f : Str → Option Str) : ∀ rs, RelabelledL (fun q q' => q' = q.bind f) rs (relabelAll f rs)
  | [] => .nil
  | r :: rs => .cons (relabelled_map f r) (relabelledL_map f rs)
end

mutual
theorem Relabelled_any {P : Option Str → Option Str → Prop} {r r'} (h : Relabelled P r r') :
    Relabelled (fun _ _ => True) r r' :=
  match h with
  | .whitespace => .whitespace
  | .tag _ => .tag trivial
  | .untilAny _ => .untilAny trivial
  | .untilAnyOrWs _ => .untilAnyOrWs trivial
  | .text _ => .text trivial
  | .number _ => .number trivial
  | .node _ => .node trivial
  | .select hs => .select (RelabelledL_any hs)
  | .fastSelect hs => .fastSelect (RelabelledL_any hs)
  | .sequence hs => .sequence (RelabelledL_any hs)
  | .separateBy hr hb => .separateBy (Relabelled_any hr) (Relabelled_any hb)
  | .repeat_ hr => .repeat_ (Relabelled_any hr)
  | .lines hr => .lines (Relabelled_any hr)
  | .optional hr => .optional (Relabelled_any hr)
  | .not hr => .not (Relabelled_any hr)
theorem RelabelledL_any {P : Option Str → Option Str → Prop} {rs rs'} (h : RelabelledL P rs rs') :
    RelabelledL (fun _ _ => True) rs rs' :=
  match h with
  | .nil => .nil
  | .cons h h' => .cons (Relabelled_any h) (RelabelledL_any h')
end

section
variable {L : Lexer} {syn syn' : Syntax} {P : Option Str → Option Str → Prop} {ind : Indent}

theorem relabel_run {D} (hD : Labels P D) (h : RelabelledL P syn.rules syn'.rules) {r p i o j tr}
    (hr : syn.rules.getLast? = some r) (hrun : Run (envOf L syn.rules ind) (.rule r) p i o j tr) :
    ∃ r' o', syn'.rules.getLast? = some r' ∧ Run (envOf L syn'.rules ind) (.rule r') p i o' j tr ∧ OutLike D o o' := by
  obtain ⟨r', h1, h2⟩ := h.last hr
  obtain ⟨o', h3, h4⟩ := run_relabel hD (E := envOf L syn.rules ind) (E' := envOf L syn'.rules ind)
    rfl rfl rfl h hrun _ (.rule h2)
  exact ⟨r', o', h1, h3, h4⟩

theorem relabel_ok {D} (hD : Labels P D) (h : RelabelledL P syn.rules syn'.rules) {text toks toks'}
    (hp : Parses L syn text toks ind (.ok toks')) :
    ∃ ts ts', toks' = toks ++ ts ∧ D ts ts' ∧ Parses L syn' text toks ind (.ok (toks ++ ts')) := by
  obtain ⟨r, n, ts, j, tr, hr, h1, h2, h3⟩ := parses_ok_run.1 hp
  obtain ⟨r', o', hr', h4, h5⟩ := relabel_run hD h hr h1
  obtain ⟨ts', rfl, h6⟩ := h5.reads
  exact ⟨ts, ts', h3, h6, parses_ok_run.2 ⟨r', n, ts', j, tr, hr', h4, h2, rfl⟩⟩

/-- A syntax with other properties accepts the same texts. -/
theorem C109_accepts (h : RelabelledL P syn.rules syn'.rules) (text : Str) (toks : List Tok) :
    (∃ toks', Parses L syn text toks ind (.ok toks')) ↔ ∃ toks', Parses L syn' text toks ind (.ok toks') := by
  constructor
  · rintro ⟨_, hp⟩
    obtain ⟨_, ts', -, -, h1⟩ := relabel_ok labels_any (RelabelledL_any h) hp
    exact ⟨_, h1⟩
  · rintro ⟨_, hp⟩
    obtain ⟨_, ts', -, -, h1⟩ := relabel_ok labels_any (RelabelledL_any h.flip) hp
    exact ⟨_, h1⟩

theorem relabel_err (h : RelabelledL P syn.rules syn'.rules) {text toks e}
    (hp : ∃ toks', Parses L syn text toks ind (.err e toks')) : ∃ toks', Parses L syn' text toks ind (.err e toks') := by
  obtain ⟨tr, h1, h2⟩ := parses_err_run.1 hp
  refine parses_err_run.2 ⟨tr, ?_, h2⟩
  cases h1 with
  | noRules h0 => rw [h0] at h; exact .noRules (by simpa using h.length.symm)
  | fails hr h1 =>
    obtain ⟨r', o', hr', h4, h5⟩ := relabel_run labels_any (RelabelledL_any h) hr h1
    obtain rfl := h5.fails
    exact .fails hr' h4
  | short hr h1 hn =>
    obtain ⟨r', o', hr', h4, h5⟩ := relabel_run labels_any (RelabelledL_any h) hr h1
    obtain ⟨ts', rfl, -⟩ := h5.reads
    exact .short hr' h4 hn

/-- It rejects the same texts with the same errors. -/
theorem C109_rejects (h : RelabelledL P syn.rules syn'.rules) (text : Str) (toks : List Tok) (e : RErr) :
    (∃ toks', Parses L syn text toks ind (.err e toks')) ↔ ∃ toks', Parses L syn' text toks ind (.err e toks') :=
  ⟨relabel_err h, relabel_err h.flip⟩

/-- It runs for ever on the same texts. -/
theorem C109_runs_for_ever (h : RelabelledL P syn.rules syn'.rules) (hs : SyntaxOk syn) {text : Str}
    (hsh : ShortFor ind.tabSpaces text) (toks : List Tok) :
    ParseDiverges L syn text toks ind ↔ ParseDiverges L syn' text toks ind := by
  rw [diverges_iff hs hsh, diverges_iff (relabel_syntaxOk h hs) hsh, C109_accepts h]
  simp only [C109_rejects h]

/-- It is optimized to the same, but for the properties. -/
theorem C109_optimizes (h : RelabelledL P syn.rules syn'.rules) {o : Syntax} (ho : Optimizes syn o) :
    ∃ o', Optimizes syn' o' ∧ RelabelledL P o.rules o'.rules := by
  obtain ⟨n, ho⟩ := ho
  obtain ⟨rules, h1, h2⟩ := Comp.bind_ok.1 ho
  cases h2
  have h3 := (optimizeRules_relabel h n h).all
  rw [optimizeRules_eq, h1, optimizeRules_eq] at h3
  generalize hx : Comp.all _ = x at h3
  cases h3 with
  | ok h3 => exact ⟨⟨_, syn'.names⟩, ⟨n, Comp.bind_ok.2 ⟨_, hx, rfl⟩⟩, h3⟩

end

/-- The syntax with every property renamed or taken away. -/
def relabelSyntax (f : Str → Option Str) (syn : Syntax) : Syntax := ⟨relabelAll f syn.rules, syn.names⟩

/-- With properties renamed or taken away by a function, the data is the same with names renamed and items taken
away by it. -/
theorem C109_data {L : Lexer} (syn : Syntax) {ind : Indent} (f : Str → Option Str) (text : Str) (toks toks' : List Tok) :
    Parses L (relabelSyntax f syn) text toks ind (.ok toks') ↔
      ∃ ts, Parses L syn text toks ind (.ok (toks ++ ts)) ∧ toks' = toks ++ ts.filterMap (relabelItem f) := by
  have h : RelabelledL _ syn.rules (relabelSyntax f syn).rules := relabelledL_map f syn.rules
  constructor
  · intro hp
    obtain ⟨us, h1⟩ := (C109_accepts h text toks).2 ⟨_, hp⟩
    obtain ⟨ts, ts', rfl, h2, h3⟩ := relabel_ok (labels_map f) h h1
    cases parses_det hp h3
    exact ⟨ts, h1, by rw [h2]⟩
  · rintro ⟨ts, hp, rfl⟩
    obtain ⟨ts', us, h1, h2, h3⟩ := relabel_ok (labels_map f) h hp
    rw [List.append_cancel_left h1, ← h2]
    exact h3

/-- Without properties nothing is recorded. -/
theorem C109_none {L : Lexer} (syn : Syntax) {ind : Indent} (text : Str) (toks toks' : List Tok) :
    Parses L (relabelSyntax (fun _ => none) syn) text toks ind (.ok toks') ↔
      toks' = toks ∧ ∃ ts, Parses L syn text toks ind (.ok ts) := by
  have hn : ∀ ts : List Tok, ts.filterMap (relabelItem fun _ => none) = [] := fun ts => by
    rw [List.filterMap_eq_nil_iff]
    rintro ⟨r, d⟩ -
    cases d <;> rfl
  rw [C109_data]
  constructor
  · rintro ⟨ts, h, rfl⟩
    exact ⟨by simp [hn], _, h⟩
  · rintro ⟨rfl, ts, h⟩
    obtain ⟨_, n, us, j, tr, -, -, -, rfl⟩ := parses_ok_run.1 h
    exact ⟨us, h, by simp [hn]⟩

/-- The name of an item. -/
def itemName : MetaData → Str
  | .startNode n => n
  | .endNode n => n
  | .bool n _ => n
  | .f64 n _ => n
  | .string n _ => n

/-- Taking away some properties takes away their items. -/
theorem C109_keep {L : Lexer} (syn : Syntax) {ind : Indent} (keep : Str → Bool) (text : Str) (toks toks' : List Tok) :
    Parses L (relabelSyntax (fun n => if keep n then some n else none) syn) text toks ind (.ok toks') ↔
      ∃ ts, Parses L syn text toks ind (.ok (toks ++ ts)) ∧ toks' = toks ++ ts.filter fun t => keep (itemName t.data) := by
  have hk : ∀ ts : List Tok, ts.filterMap (relabelItem fun n => if keep n then some n else none) =
      ts.filter fun t => keep (itemName t.data) := fun ts => by
    rw [← List.filterMap_eq_filter]
    congr 1
    funext ⟨r, d⟩
    cases d <;> simp only [relabelItem, itemName, Option.guard] <;> split <;> simp_all
  rw [C109_data]
  simp only [hk]

/-! ### A case -/

/-- `["a":"x" node:"z"]`, where node is `"b":"y"`. -/
def exLabels : Syntax :=
  ⟨[.tag c!"b" false false (some c!"y") 1,
    .sequence [.tag c!"a" false false (some c!"x") 2, .node c!"node" (some c!"z") (some 0) 3] 4], [c!"node", c!"doc"]⟩

example : Parses stdLexer exLabels c!"ab" [] Indent.default
      (.ok [⟨⟨0, 1⟩, .bool c!"x" true⟩, ⟨⟨1, 0⟩, .startNode c!"z"⟩, ⟨⟨1, 1⟩, .bool c!"y" true⟩, ⟨⟨1, 1⟩, .endNode c!"z"⟩]) ∧
    Parses stdLexer (relabelSyntax (fun n => if n = c!"z" then none else some (n ++ n)) exLabels) c!"ab" [] Indent.default
      (.ok [⟨⟨0, 1⟩, .bool c!"xx" true⟩, ⟨⟨1, 1⟩, .bool c!"yy" true⟩]) := by
  have h : Parses stdLexer exLabels c!"ab" [] Indent.default
      (.ok [⟨⟨0, 1⟩, .bool c!"x" true⟩, ⟨⟨1, 0⟩, .startNode c!"z"⟩, ⟨⟨1, 1⟩, .bool c!"y" true⟩, ⟨⟨1, 1⟩, .endNode c!"z"⟩]) :=
    ⟨by simp, 9, by decide +kernel⟩
  exact ⟨h, (C109_data ..).2 ⟨_, h, by decide +kernel⟩⟩

end Verif.Props
