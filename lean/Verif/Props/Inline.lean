import Verif.Proofs.InlineText
import Verif.Props.Outcome
import Verif.Props.Renumber
import Verif.Props.Examples
/-
C98: what does not matter in a rule file.
-/
namespace Verif.Props
open Verif Verif.Spec

variable {L : Lexer}

theorem runs_of_returns {text text' : Str} (h : (∃ r, SyntaxReturns L text r) → ∃ r, SyntaxReturns L text' r)
    (hp : SyntaxPanics L text → SyntaxPanics L text') (hr : SyntaxRuns L text') : SyntaxRuns L text := by
  rcases (C46_one_outcome (L := L) (text := text)).2.2.2.2 with h' | h' | h'
  · obtain ⟨r, h'⟩ := h h'
    exact absurd hr (C46_one_outcome.2.2.1 r h')
  · exact absurd hr (C46_one_outcome.2.2.2.1 (hp h'))
  · exact h'

theorem text_panics (hL : L.Lawful) (hX : L.Exact) {doc : Doc} {text : Str} (h : doc.Text L text) :
    SyntaxPanics L text ↔ doc.Overflows := by
  rw [C64_panics_iff hL hX]
  refine ⟨fun ⟨doc', h', ho⟩ => ?_, fun ho => ⟨doc, h, ho⟩⟩
  rwa [C49_unambiguous hL (exact_noSlash hX) h h']

theorem overflow_returns (hL : L.Lawful) (hX : L.Exact) {doc : Doc} {text : Str} (h : doc.Text L text)
    (ho : doc.Overflows) (r : Except RErr Syntax) : ¬ SyntaxReturns L text r :=
  fun h' => C46_one_outcome.2.1 r h' ((text_panics hL hX h).2 ho)

/-- Two rule files whose documents are read as the same rules are the same for `syntax`. -/
theorem C98_reading (hL : L.Lawful) (hX : L.Exact) {doc doc' : Doc} {text text' : Str} (h : doc.Text L text)
    (h' : doc'.Text L text') (e : (Doc.read doc.strings doc.nodes).1 = (Doc.read doc'.strings doc'.nodes).1)
    (ho : doc.Overflows ↔ doc'.Overflows) : SyntaxSame L text text' := by
  have hp : SyntaxPanics L text ↔ SyntaxPanics L text' := by rw [text_panics hL hX h, text_panics hL hX h', ho]
  have hr : ∀ r, SyntaxReturns L text r ↔ SyntaxReturns L text' r := by
    intro r
    by_cases hd : doc.Overflows
    · exact ⟨fun hr => absurd hr (overflow_returns hL hX h hd r), fun hr => absurd hr (overflow_returns hL hX h' (ho.1 hd) r)⟩
    · rw [C49_meaning hL (exact_noSlash hX) h hd, C49_meaning hL (exact_noSlash hX) h' (fun x => hd (ho.2 x)), e]
  exact ⟨hr, hp, ⟨runs_of_returns (fun ⟨r, x⟩ => ⟨r, (hr r).2 x⟩) hp.2, runs_of_returns (fun ⟨r, x⟩ => ⟨r, (hr r).1 x⟩) hp.1⟩⟩

/-- C98: whitespace, line breaks, comments, and how strings are escaped do not matter. -/
theorem C98_layout (hL : L.Lawful) (hX : L.Exact) {doc : Doc} {text text' : Str} (h : doc.Text L text)
    (h' : doc.Text L text') : SyntaxSame L text text' := C98_reading hL hX h h' rfl Iff.rfl

/-- C98: nor do comments. -/
theorem C98_comments (hL : L.Lawful) (hX : L.Exact) {es fs es' fs' : List Entry} {text text' : Str}
    (hes : ∀ e ∈ es ++ es', e.isNode = false) (hfs : ∀ e ∈ fs ++ fs', e.isString = false)
    (h : EntriesText L true (es ++ fs) text) (h' : EntriesText L true (es' ++ fs') text')
    (e : es.filter Entry.counts = es'.filter Entry.counts) (e' : fs.filter Entry.counts = fs'.filter Entry.counts) :
    SyntaxSame L text text' := by
  have hst : ∀ es, stringsIn (es.filter Entry.counts) = stringsIn es := by
    intro es
    induction es with
    | nil => rfl
    | cons e es ih => cases e <;> simp [List.filter, Entry.counts, stringsIn, ih]
  have hnd : ∀ es, nodesIn (es.filter Entry.counts) = nodesIn es := by
    intro es
    induction es with
    | nil => rfl
    | cons e es ih => cases e <;> simp [List.filter, Entry.counts, nodesIn, ih]
  refine C98_layout (doc := ⟨stringsIn es, nodesIn fs⟩) hL hX
    ⟨es, fs, fun e he => hes e (by simp [he]), fun e he => hfs e (by simp [he]), h, rfl, rfl⟩
    ⟨es', fs', fun e he => hes e (by simp [he]), fun e he => hfs e (by simp [he]), h', ?_, ?_⟩
  · rw [← hst es, ← hst es', e]
  · rw [← hnd fs, ← hnd fs', e']

/-- C98: a string stands for its text.  Two rule files that are the same once the strings are replaced
by their texts are the same for `syntax`: their order, strings that are not used, and second
definitions of a name do not matter. -/
theorem C98_strings (hL : L.Lawful) (hX : L.Exact) {doc doc' : Doc} {text text' : Str} (h : doc.Text L text)
    (h' : doc'.Text L text') (e : doc.inline = doc'.inline) : SyntaxSame L text text' := by
  have e' : doc.inline.nodes = doc'.inline.nodes := by rw [e]
  simp only [Doc.inline] at e'
  have h1 := Doc.read_inline doc.strings doc.nodes
  have h2 := Doc.read_inline doc'.strings doc'.nodes
  rw [e'] at h1
  exact C98_reading hL hX h h' (by rw [← h1.1, h2.1]) (h1.2.symm.trans h2.2)

theorem inline_congr {s s' : List (Str × Str)} (h : ∀ n, s.lookup n = s'.lookup n) (d : Desc) : d.inline s = d.inline s' := by
  have hv : ∀ v : SetV, v.inline s = v.inline s' := by intro v; cases v <;> simp [SetV.inline, h]
  have hp : ∀ p : Option SetV, p.map (·.inline s) = p.map (·.inline s') := by intro p; cases p <;> simp [hv]
  refine Desc.rec (motive_1 := fun d => d.inline s = d.inline s')
    (motive_2 := fun ds => Desc.inlineL s ds = Desc.inlineL s' ds)
    ?_ ?_ ?_ ?_ ?_ ?_ ?_ ?_ ?_ ?_ ?_ ?_ ?_ ?_ ?_ ?_ d <;> intros <;> simp_all [Desc.inline, Desc.inlineL]

/-- C98: the order of strings does not matter, as long as the first definition of each name is the same. -/
theorem C98_order (hL : L.Lawful) (hX : L.Exact) {doc doc' : Doc} {text text' : Str} (h : doc.Text L text)
    (h' : doc'.Text L text') (e : doc.nodes = doc'.nodes) (hs : ∀ n, doc.strings.lookup n = doc'.strings.lookup n) :
    SyntaxSame L text text' := by
  refine C98_strings hL hX h h' ?_
  simp only [Doc.inline, e, inline_congr hs]

theorem inline_inline (doc : Doc) : doc.inline.inline = doc.inline := by
  have hv : ∀ v : SetV, v.inline [] = v := by intro v; cases v <;> rfl
  have hp : ∀ p : Option SetV, p.map (·.inline []) = p := by intro p; cases p <;> simp [hv]
  have hd : ∀ d : Desc, d.inline [] = d := by
    intro d
    refine Desc.rec (motive_1 := fun d => d.inline [] = d) (motive_2 := fun ds => Desc.inlineL [] ds = ds)
      ?_ ?_ ?_ ?_ ?_ ?_ ?_ ?_ ?_ ?_ ?_ ?_ ?_ ?_ ?_ ?_ d <;> intros <;> simp_all [Desc.inline, Desc.inlineL]
  simp [Doc.inline, hd]

/-- C98: every rule file without empty strings can be written without strings. -/
theorem C98_inline (hL : L.Lawful) (hX : L.Exact) {doc : Doc} {text : Str} (h : doc.Text L text)
    (hs : ∀ s ∈ doc.strings, s.2 ≠ []) (hk : ∀ n ∈ doc.nodes, Writable L n.1) :
    ∃ text', doc.inline.Text L text' ∧ SyntaxSame L text text' := by
  obtain ⟨text', h'⟩ := inline_doc hL h hs hk
  exact ⟨text', h', C98_strings hL hX h h' (inline_inline doc).symm⟩

/-! ### Numbers -/

/-- The rules are named alike, and the same but for their ids. -/
def RuleLike (R : DebugId → DebugId → Prop) : List (Str × Rule) → List (Str × Rule) → Prop
  | [], [] => True
  | x :: xs, y :: ys => x.1 = y.1 ∧ (∃ r f g, x.2 = renumber f r ∧ y.2 = renumber g r ∧ ∀ id, R (f id) (g id)) ∧ RuleLike R xs ys
  | _, _ => False

theorem RuleLike.mono {R S : DebugId → DebugId → Prop} (h : ∀ a b, R a b → S a b) :
    ∀ {xs ys}, RuleLike R xs ys → RuleLike S xs ys
  | [], [], _ => trivial
  | _ :: _, _ :: _, ⟨h1, ⟨r, f, g, h2, h3, h4⟩, h5⟩ => ⟨h1, ⟨r, f, g, h2, h3, fun id => h _ _ (h4 id)⟩, h5.mono h⟩

theorem RuleLike.names {R : DebugId → DebugId → Prop} : ∀ {xs ys}, RuleLike R xs ys → xs.map (·.1) = ys.map (·.1)
  | [], [], _ => rfl
  | _ :: _, _ :: _, ⟨h1, _, h5⟩ => by simp [h1, h5.names]

theorem RuleLike.rules {R : DebugId → DebugId → Prop} (names : List Str) : ∀ {xs ys}, RuleLike R xs ys →
    RenumberedL R (xs.map fun x => Rule.updateRefs names x.2) (ys.map fun x => Rule.updateRefs names x.2)
  | [], [], _ => .nil
  | _ :: _, _ :: _, ⟨_, ⟨r, f, g, h2, h3, h4⟩, h5⟩ => by
    simp only [List.map_cons, h2, h3, renumber_updateRefs]
    exact .cons (renumbered_two f g h4 _) (h5.rules names)

theorem read_numbers (strings : List (Str × Str)) : ∀ {ns ns' : List (F64 × Str × Desc)}, SameNodes ns ns' →
    match (Doc.read strings ns).1, (Doc.read strings ns').1 with
    | none, none => True
    | some rs, some rs' => RuleLike (SamePlace ns ns') rs rs'
    | _, _ => False
  | [], [], _ => trivial
  | (k, name, d) :: ns, (k', name', d') :: ns', ⟨e, h⟩ => by
    cases e
    have ih := read_numbers strings h
    have h1 := Desc.read_shift strings (k.toUsize * 1000) d 0
    have h2 := Desc.read_shift strings (k'.toUsize * 1000) d 0
    rw [Nat.zero_add] at h1 h2
    simp only [Doc.read, h1, h2, shiftRead]
    cases h3 : (d.read strings 0).1 with
    | none => simp
    | some r =>
      simp only [Option.map_some]
      generalize (Doc.read strings ns).1 = x at ih ⊢
      generalize (Doc.read strings ns').1 = y at ih ⊢
      cases x <;> cases y <;> simp_all
      refine ⟨rfl, ⟨r, _, _, rfl, rfl, fun id => ⟨_, List.mem_cons_self, id, Nat.add_comm _ _, Nat.add_comm _ _⟩⟩, ?_⟩
      exact ih.mono fun a b ⟨x, hx, hj⟩ => ⟨x, List.mem_cons_of_mem _ hx, hj⟩

theorem sameNodes_symm : ∀ {ns ns' : List (F64 × Str × Desc)}, SameNodes ns ns' → SameNodes ns' ns
  | [], [], _ => trivial
  | _ :: _, _ :: _, ⟨e, h⟩ => ⟨e.symm, sameNodes_symm h⟩

theorem optimizes_names {syn syn' : Syntax} (h : Optimizes syn syn') : syn'.names = syn.names := by
  obtain ⟨n, h⟩ := h
  obtain ⟨rules, h1, h2⟩ := Comp.bind_ok.1 h
  cases h2
  rfl

theorem numbers_return (hL : L.Lawful) (hX : L.Exact) {doc doc' : Doc} {text text' : Str} (h : doc.Text L text)
    (h' : doc'.Text L text') (hs : doc.strings = doc'.strings) (hn : SameNodes doc.nodes doc'.nodes)
    (ho : ¬ doc.Overflows) (ho' : ¬ doc'.Overflows) :
    (∀ syn, SyntaxReturns L text (.ok syn) → ∃ syn', SyntaxReturns L text' (.ok syn') ∧ syn'.names = syn.names ∧
      RenumberedL (SamePlace doc.nodes doc'.nodes) syn.rules syn'.rules) ∧
    ∀ e, SyntaxReturns L text (.error e) → SyntaxReturns L text' (.error e) := by
  have hX' := exact_noSlash hX
  simp only [C49_meaning hL hX' h ho, C49_meaning hL hX' h' ho']
  have key := read_numbers doc.strings hn
  rw [← hs]
  generalize (Doc.read doc.strings doc.nodes).1 = x at key ⊢
  generalize (Doc.read doc.strings doc'.nodes).1 = y at key ⊢
  cases x <;> cases y <;> simp only at key ⊢
  · exact ⟨fun _ h => (by cases h), fun _ h => h⟩
  · rename_i rs rs'
    refine ⟨?_, fun e ⟨_, _, h⟩ => (by cases h)⟩
    rintro syn ⟨_, hsyn, e⟩
    cases e
    have e := key.names
    have hr : RenumberedL (SamePlace doc.nodes doc'.nodes) (syntaxOf rs).rules (syntaxOf rs').rules := by
      simp only [syntaxOf, ← e]
      exact key.rules _
    obtain ⟨syn', h1, h2⟩ := C61_optimizes hr hsyn
    refine ⟨syn', ⟨syn', h1, rfl⟩, ?_, h2⟩
    rw [optimizes_names h1, optimizes_names hsyn]
    exact e.symm

/-- C98: the numbers of the nodes only shift debug ids, by 1000 for each: with other numbers, that are not
too large, `syntax` returns the same rules under the same names but for their ids, or the same error, or
runs for ever on both texts. -/
theorem C98_numbers (hL : L.Lawful) (hX : L.Exact) {doc doc' : Doc} {text text' : Str} (h : doc.Text L text)
    (h' : doc'.Text L text') (hs : doc.strings = doc'.strings) (hn : SameNodes doc.nodes doc'.nodes)
    (ho : ¬ doc.Overflows) (ho' : ¬ doc'.Overflows) :
    (∀ syn, SyntaxReturns L text (.ok syn) → ∃ syn', SyntaxReturns L text' (.ok syn') ∧ syn'.names = syn.names ∧
      RenumberedL (SamePlace doc.nodes doc'.nodes) syn.rules syn'.rules) ∧
    (∀ e, SyntaxReturns L text (.error e) ↔ SyntaxReturns L text' (.error e)) ∧
    (SyntaxRuns L text ↔ SyntaxRuns L text') := by
  obtain ⟨h1, h2⟩ := numbers_return hL hX h h' hs hn ho ho'
  obtain ⟨h3, h4⟩ := numbers_return hL hX h' h hs.symm (sameNodes_symm hn) ho' ho
  have key : ∀ {text text'}, (∀ syn, SyntaxReturns L text (.ok syn) → ∃ syn', SyntaxReturns L text' (.ok syn')) →
      (∀ e, SyntaxReturns L text (.error e) → SyntaxReturns L text' (.error e)) →
      (∃ r, SyntaxReturns L text r) → ∃ r, SyntaxReturns L text' r := by
    rintro text text' h h' ⟨r | syn, hr⟩
    · exact ⟨_, h' _ hr⟩
    · obtain ⟨syn', h⟩ := h _ hr
      exact ⟨_, h⟩
  have hp := mt (text_panics hL hX h).1 ho
  have hp' := mt (text_panics hL hX h').1 ho'
  refine ⟨h1, fun e => ⟨h2 e, h4 e⟩, ?_, ?_⟩
  · exact runs_of_returns (key (fun s hs => (h3 s hs).imp fun _ h => h.1) h4) fun x => absurd x hp'
  · exact runs_of_returns (key (fun s hs => (h1 s hs).imp fun _ h => h.1) h2) fun x => absurd x hp

/-- C98: so the rules of the two texts accept the same texts with the same data, and reject the same with
the same error at the same place, but for its id. -/
theorem C98_numbers_parse (hL : L.Lawful) (hX : L.Exact) {doc doc' : Doc} {text text' : Str} (h : doc.Text L text)
    (h' : doc'.Text L text') (hs : doc.strings = doc'.strings) (hn : SameNodes doc.nodes doc'.nodes)
    (ho : ¬ doc.Overflows) (ho' : ¬ doc'.Overflows) {syn syn' : Syntax} (h1 : SyntaxReturns L text (.ok syn))
    (h2 : SyntaxReturns L text' (.ok syn')) (ind : Indent) (s : Str) (toks : List Tok) :
    (∀ toks', Parses L syn s toks ind (.ok toks') ↔ Parses L syn' s toks ind (.ok toks')) ∧
    (∀ e, (∃ toks', Parses L syn s toks ind (.err e toks')) →
      ∃ e', RErrLike (SamePlace doc.nodes doc'.nodes) e e' ∧ ∃ toks', Parses L syn' s toks ind (.err e' toks')) := by
  obtain ⟨syn'', h3, -, h4⟩ := (C98_numbers hL hX h h' hs hn ho ho').1 syn h1
  cases C46_one_outcome.1 _ _ h2 h3
  exact ⟨C61_accepts h4 s toks, fun e => C61_rejects h4⟩

/-! ### Empty strings -/

theorem decode_empty : ∀ (cs : Str) (off : Nat), Std.decode cs off = .ok [] → cs = []
  | [], _, _ => rfl
  | c :: cs, off, h => by
    have key : ∀ {x : Except (Range × StrErr) Str} {c : Char}, x.map (c :: ·) ≠ .ok [] := by
      intro x c h
      cases x <;> simp [Except.map] at h
    unfold Std.decode at h
    split at h
    · assumption
    · split at h
      · split at h
        · exact absurd h key
        · cases h
      · split at h
        · exact absurd h key
        · cases h
      · cases h
    · exact absurd h key

theorem lit_empty {cs : Str} (h : IsLit stdLexer [] cs) : cs.length = 2 := by
  have h1 := h []
  have h2 := stdLexer_lawful.str_some h1.1
  have h3 := congrArg List.length (decode_empty _ _ h1.2)
  simp at h3
  omega

/-- C98: the condition on empty strings is needed.  A tag with an empty text cannot be written as such, only
as the name of an empty string. -/
theorem C98_empty_tag (neg inv : Option Bool) (p : Option SetV) (cs : Str) :
    ¬ (Desc.tag neg (.value []) inv p).Text stdLexer cs := by
  cases p with
  | none =>
    rintro ⟨n, a, -, h, -⟩
    exact absurd (h.2 (lit_empty h.1)) (by simp)
  | some v =>
    rintro ⟨n, a, i, b, -, h, -⟩
    exact absurd (h.2 (lit_empty h.1)) (by simp)

/-! ### Examples -/

def withStrings : Str := c!"_un: \"q\"\n_op: \"+\"\n_op: \"-\"\n1 a = [_op:_zz b]\n2 b = .t!:_op\n"
def withoutStrings : Str := c!"1 a = [  \"+\":_zz b ]\n\n  2 b =.t!:\"+\""
def otherNumbers : Str := c!"2 a = [\"+\":_zz b]\n0 b = .t!:\"+\"\n"

def plainNodes (x y : Str × F64) (op : SetV) : List (Str × F64 × Str × Desc) :=
  [(x.1, x.2, c!"a", .sequence [.tag none op none (some (.ref c!"zz")), .reference c!"b" none]),
   (y.1, y.2, c!"b", .text (some false) (some op))]

/-- The same for `syntax`, although one has strings, one of them twice and one that is not used. -/
example : SyntaxSame stdLexer withStrings withoutStrings :=
  C98_strings stdLexer_lawful stdLexer_exact
    (doc := ⟨_, _⟩) (doc' := ⟨_, _⟩)
    (eatDoc_text stdLexer_lawful std_readsNumbers
      (ss := [(c!"un", c!"q"), (c!"op", c!"+"), (c!"op", c!"-")])
      (ns := plainNodes (c!"1", ⟨0x3FF0000000000000⟩) (c!"2", ⟨0x4000000000000000⟩) (.ref c!"op")) (by decide +kernel))
    (eatDoc_text stdLexer_lawful std_readsNumbers (ss := [])
      (ns := plainNodes (c!"1", ⟨0x3FF0000000000000⟩) (c!"2", ⟨0x4000000000000000⟩) (.value c!"+")) (by decide +kernel))
    rfl

theorem self_writable {L : Lexer} (hN : ReadsNumbers L) : ∀ n ∈ selfDoc.nodes, Writable L n.1 := by
  intro n hn
  have h : ∀ n ∈ selfDoc.nodes, ∃ x ∈ selfRules, x.2.1 = n.1 := by decide +kernel
  obtain ⟨x, hx, e⟩ := h n hn
  exact ⟨x.1, fun c rest hc => e ▸ hN x hx c rest hc⟩

/-- C98: assets/self-syntax.txt can be written without strings, too. -/
theorem C98_self {L : Lexer} (hL : L.Lawful) (hX : L.Exact) (hN : ReadsNumbers L) :
    ∃ text, selfDoc.inline.Text L text ∧ SyntaxSame L selfText text :=
  C98_inline hL hX (C63_stands_for hL hN) (by decide +kernel) (self_writable hN)

/-- Other numbers: the ids differ by 1000 in the first rule and by 2000 in the second. -/
example : SamePlace [(⟨0x3FF0000000000000⟩, c!"a", .whitespace true), (⟨0x4000000000000000⟩, c!"b", .whitespace true)]
    [(⟨0x4000000000000000⟩, c!"a", .whitespace true), (⟨0⟩, c!"b", .whitespace true)] 2001 1 :=
  ⟨_, .tail _ (.head _), 1, by decide +kernel, by decide +kernel⟩

def nodes12 : List (Str × F64 × Str × Desc) :=
  plainNodes (c!"1", ⟨0x3FF0000000000000⟩) (c!"2", ⟨0x4000000000000000⟩) (.value c!"+")
def nodes20 : List (Str × F64 × Str × Desc) := plainNodes (c!"2", ⟨0x4000000000000000⟩) (c!"0", ⟨0⟩) (.value c!"+")

theorem withoutStrings_text : (⟨[], nodes12.map (·.2)⟩ : Doc).Text stdLexer withoutStrings := eatDoc_text stdLexer_lawful std_readsNumbers (ss := [])
  (ns := nodes12) (text := withoutStrings) (by decide +kernel)

theorem otherNumbers_text : (⟨[], nodes20.map (·.2)⟩ : Doc).Text stdLexer otherNumbers := eatDoc_text stdLexer_lawful std_readsNumbers (ss := [])
  (ns := nodes20) (text := otherNumbers) (by decide +kernel)

example : (∃ e, SyntaxReturns stdLexer withoutStrings (.error e)) ↔ ∃ e, SyntaxReturns stdLexer otherNumbers (.error e) :=
  exists_congr (C98_numbers stdLexer_lawful stdLexer_exact withoutStrings_text otherNumbers_text rfl
    ⟨rfl, rfl, trivial⟩ (by decide +kernel) (by decide +kernel)).2.1

/-- The order of nodes does matter: the last one is where parsing begins. -/
example : (syntaxOf [(c!"a", .whitespace true 1), (c!"b", .whitespace false 2)]).rules.getLast? ≠
    (syntaxOf [(c!"b", .whitespace false 2), (c!"a", .whitespace true 1)]).rules.getLast? := by
  simp [syntaxOf, Rule.updateRefs]

end Verif.Props
