import Verif.Spec.ContextFree
import Verif.Props.Time
import Verif.Proofs.DataSize
import Mathlib.Data.Set.Finite.Lattice
/-
What rules generate that read nothing but tags is what a context-free grammar generates.
-/
namespace Verif.Spec

/-! ### There are finitely many goals -/

theorem child_finite (r : Rule) : {c | Child c r}.Finite := by
  cases r with
  | select args id =>
    refine (List.finite_toSet args).subset ?_
    intro c h
    cases h with | select h => exact h
  | fastSelect tb args tail id =>
    refine (List.finite_toSet args).subset ?_
    intro c h
    cases h with | fast h => exact h
  | sequence args id =>
    refine (List.finite_toSet args).subset ?_
    intro c h
    cases h with | sequence h => exact h
  | separateBy r b opt trail id =>
    refine (List.finite_toSet [r, b]).subset ?_
    intro c h
    cases h <;> simp
  | repeat_ r opt id =>
    refine (List.finite_toSet [r]).subset ?_
    intro c h
    cases h; simp
  | lines r ind id =>
    refine (List.finite_toSet [r]).subset ?_
    intro c h
    cases h; simp
  | optional r id =>
    refine (List.finite_toSet [r]).subset ?_
    intro c h
    cases h; simp
  | not r id =>
    refine (List.finite_toSet [r]).subset ?_
    intro c h
    cases h; simp
  | _ =>
    refine Set.finite_empty.subset ?_
    intro c h
    cases h

theorem occurs_finite : ∀ (n : Nat) (r : Rule), ruleSize r ≤ n → {x | Occurs x r}.Finite
  | 0, r, h => by
    have := Props.ruleSize_pos r
    omega
  | n + 1, r, h => by
    have h1 : (⋃ c ∈ {c | Child c r}, {x | Occurs x c}).Finite := by
      refine (child_finite r).biUnion fun c hc => occurs_finite n c ?_
      have := Props.ruleSize_child hc
      omega
    refine ((Set.finite_singleton r).union h1).subset ?_
    intro x hx
    cases hx with
    | refl => exact .inl rfl
    | step h h' => exact .inr (Set.mem_biUnion (show _ ∈ {c | Child c r} from h') h)

theorem part_finite (refs : List Rule) : {x | Part refs x}.Finite := by
  have : (⋃ q ∈ {q | q ∈ refs}, {x | Occurs x q}).Finite :=
    (List.finite_toSet refs).biUnion fun q _ => occurs_finite _ q (Nat.le_refl _)
  refine this.subset ?_
  rintro x ⟨q, hq, h⟩
  exact Set.mem_biUnion (show q ∈ {q | q ∈ refs} from hq) h

/-- The goals of a rule itself. -/
def ownGoals : Rule → List Goal
  | .sequence rs id => .rule (.sequence rs id) :: rs.tails.map .seq
  | .repeat_ r opt id => [.rule (.repeat_ r opt id), .rep r]
  | .separateBy r b opt trail id => [.rule (.separateBy r b opt trail id), .sepTail r b trail]
  | r => [.rule r]

theorem ownGoals_self (r : Rule) : Goal.rule r ∈ ownGoals r := by
  cases r <;> simp [ownGoals]

theorem goals_finite (refs : List Rule) : {g | GoalOf refs g}.Finite := by
  have : (⋃ x ∈ {x | Part refs x}, {g | g ∈ ownGoals x}).Finite :=
    (part_finite refs).biUnion fun x _ => List.finite_toSet _
  refine this.subset ?_
  intro g hg
  cases g with
  | rule x => exact Set.mem_biUnion (show x ∈ {x | Part refs x} from hg) (ownGoals_self x)
  | seq rs =>
    obtain ⟨pre, id, h⟩ := hg
    exact Set.mem_biUnion (show _ ∈ {x | Part refs x} from h) (by simp [ownGoals])
  | rep r =>
    obtain ⟨opt, id, h⟩ := hg
    exact Set.mem_biUnion (show _ ∈ {x | Part refs x} from h) (by simp [ownGoals])
  | sepTail r b trail =>
    obtain ⟨opt, id, h⟩ := hg
    exact Set.mem_biUnion (show _ ∈ {x | Part refs x} from h) (by simp [ownGoals])
  | _ => exact hg.elim

theorem productions_finite (refs : List Rule) : {p : ContextFreeRule Char Goal | GoalOf refs p.input ∧ p.output ∈ ways refs p.input}.Finite := by
  have : (⋃ g ∈ {g | GoalOf refs g}, {p : ContextFreeRule Char Goal | p ∈ (ways refs g).map (ContextFreeRule.mk g)}).Finite :=
    (goals_finite refs).biUnion fun g _ => List.finite_toSet _
  refine this.subset ?_
  rintro ⟨g, out⟩ ⟨h1, h2⟩
  exact Set.mem_biUnion (show g ∈ {g | GoalOf refs g} from h1) (by simpa using h2)

/-- The grammar of the rules. -/
noncomputable def grammarOf (refs : List Rule) (start : Rule) : ContextFreeGrammar Char :=
  ⟨Goal, .rule start, (productions_finite refs).toFinset⟩

/-- The productions. -/
def Production (refs : List Rule) (p : ContextFreeRule Char Goal) : Prop := GoalOf refs p.input ∧ p.output ∈ ways refs p.input

theorem grammarOf_rules {refs : List Rule} {start : Rule} : (· ∈ (grammarOf refs start).rules) = Production refs := by
  funext p
  exact propext (Set.Finite.mem_toFinset _)

/-! ### Derivations as trees -/

section
variable {T N : Type} {R : ContextFreeRule T N → Prop}

/-- The symbols become the word. -/
inductive Becomes (R : ContextFreeRule T N → Prop) : List (Symbol T N) → List T → Prop
  | nil : Becomes R [] []
  | term {a s w} (h : Becomes R s w) : Becomes R (.terminal a :: s) (a :: w)
  | prod {r s v w} (hr : R r) (h : Becomes R r.output v) (h' : Becomes R s w) : Becomes R (.nonterminal r.input :: s) (v ++ w)

theorem Becomes.append {s t : List (Symbol T N)} {v w : List T} (h : Becomes R s v) (h' : Becomes R t w) :
    Becomes R (s ++ t) (v ++ w) := by
  induction h with
  | nil => exact h'
  | term _ ih => exact .term ih
  | prod hr h _ _ ih =>
    rw [List.append_assoc]
    exact .prod hr h ih

theorem Becomes.split {s t : List (Symbol T N)} {w : List T} (h : Becomes R (s ++ t) w) :
    ∃ v u, w = v ++ u ∧ Becomes R s v ∧ Becomes R t u := by
  induction s generalizing w with
  | nil => exact ⟨[], w, rfl, .nil, h⟩
  | cons x s ih =>
    cases h with
    | term h =>
      obtain ⟨v, u, rfl, h1, h2⟩ := ih h
      exact ⟨_ :: v, u, rfl, .term h1, h2⟩
    | @prod _ _ v' _ hr h h' =>
      obtain ⟨v, u, rfl, h1, h2⟩ := ih h'
      exact ⟨v' ++ v, u, by simp, .prod hr h h1, h2⟩

theorem becomes_word : ∀ w : List T, Becomes R (w.map .terminal) w
  | [] => .nil
  | a :: w => .term (becomes_word w)

theorem derives_becomes {G : ContextFreeGrammar T} {s : List (Symbol T G.NT)} {w : List T} (h : G.Derives s (w.map .terminal)) : Becomes (· ∈ G.rules) s w := by
  generalize ht : w.map Symbol.terminal = t at h
  induction h using Relation.ReflTransGen.head_induction_on with
  | refl => exact ht ▸ becomes_word w
  | head h _ ih =>
    obtain ⟨r, hr, h⟩ := h
    obtain ⟨p, q, rfl, rfl⟩ := h.exists_parts
    obtain ⟨v, u, rfl, h1, h2⟩ := Becomes.split ih
    obtain ⟨v1, v2, rfl, h3, h4⟩ := Becomes.split h1
    have h5 := Becomes.prod hr h4 h2
    have := h3.append h5
    simpa using this

theorem becomes_derives {G : ContextFreeGrammar T} {s : List (Symbol T G.NT)} {w : List T} (h : Becomes (· ∈ G.rules) s w) : G.Derives s (w.map .terminal) := by
  induction h with
  | nil => exact .refl _
  | @term a s w _ ih => exact ih.append_left [.terminal a]
  | @prod r s v w hr _ _ ih1 ih2 =>
    have h1 : G.Derives (.nonterminal r.input :: s) (r.output ++ s) := ContextFreeGrammar.Produces.single ⟨r, hr, .head s⟩
    have h2 := (ih1.append_right s).trans (ih2.append_left (v.map .terminal))
    simpa using h1.trans h2

end

/-! ### What is generated -/

section
variable {E : Env} {start : Rule}

/-- One after the other, the symbols are generated. -/
def GeneratesAll (E : Env) : List (Symbol Char Goal) → Pos → Nat → Prop
  | [], _, n => n = 0
  | .terminal a :: s, p, n => ∃ m, n = 1 + m ∧ p.src.head? = some a ∧ GeneratesAll E s (adv p 1) m
  | .nonterminal g :: s, p, n => ∃ k m ts, n = k + m ∧ Generates E g p k ts ∧ GeneratesAll E s (adv p k) m

theorem generatesAll_tag : ∀ (t : Str) {p : Pos} {n : Nat}, GeneratesAll E (t.map .terminal) p n → t <+: p.src ∧ n = t.length
  | [], p, n, h => ⟨List.nil_prefix, h⟩
  | a :: t, p, n, h => by
    obtain ⟨m, rfl, h1, h2⟩ := h
    obtain ⟨h3, rfl⟩ := generatesAll_tag t h2
    refine ⟨?_, by simp; omega⟩
    cases hp : p.src with
    | nil => rw [hp] at h1; cases h1
    | cons b s =>
      rw [hp] at h1
      cases h1
      simp only [adv, hp, List.drop_one, List.tail_cons] at h3
      exact (List.cons_prefix_cons).2 ⟨rfl, h3⟩

/-- What a goal may be replaced by, it generates. -/
theorem generates_way (ho : ∀ x, Part E.refs x → OnlyTags x) {g : Goal} (hg : GoalOf E.refs g) {out : List (Symbol Char Goal)}
    (hw : out ∈ ways E.refs g) {p : Pos} {n : Nat} (h : GeneratesAll E out p n) : ∃ ts, Generates E g p n ts := by
  cases g with
  | rule r =>
    have hr := ho r hg
    cases r with
    | tag t no inv prop id =>
      cases (show no = false from hr)
      simp only [ways, List.mem_singleton] at hw
      subst hw
      obtain ⟨h1, rfl⟩ := generatesAll_tag t h
      exact ⟨_, .token (i := 0) trivial (.tag_ok h1)⟩
    | select rs id =>
      simp only [ways, List.mem_map] at hw
      obtain ⟨r, hr, rfl⟩ := hw
      obtain ⟨k, m, ts, rfl, h1, rfl⟩ := h
      exact ⟨ts, .select hr h1⟩
    | sequence rs id =>
      simp only [ways, List.mem_singleton] at hw
      subst hw
      obtain ⟨k, m, ts, rfl, h1, rfl⟩ := h
      exact ⟨ts, .sequence h1⟩
    | repeat_ r opt id =>
      cases opt with
      | true =>
        simp only [ways, List.mem_singleton] at hw
        subst hw
        obtain ⟨k, m, ts, rfl, h1, rfl⟩ := h
        exact ⟨ts, .repeat_any h1⟩
      | false =>
        simp only [ways, List.mem_singleton] at hw
        subst hw
        obtain ⟨k, m, ts, rfl, h1, k', m', us, rfl, h2, rfl⟩ := h
        exact ⟨_, .repeat_some h1 h2⟩
    | separateBy r b opt trail id =>
      simp only [ways, List.mem_append, List.mem_singleton] at hw
      rcases hw with hw | rfl
      · cases opt with
        | false => simp at hw
        | true =>
          simp only [if_true, List.mem_singleton] at hw
          subst hw
          cases (show n = 0 from h)
          exact ⟨_, .sep_none⟩
      · obtain ⟨k, m, ts, rfl, h1, k', m', us, rfl, h2, rfl⟩ := h
        exact ⟨_, .sep_some h1 h2⟩
    | node name prop ix id =>
      cases ix with
      | none => simp [ways] at hw
      | some ix =>
        simp only [ways, List.mem_map, Option.mem_toList] at hw
        obtain ⟨r, hr, rfl⟩ := hw
        obtain ⟨k, m, ts, rfl, h1, rfl⟩ := h
        exact ⟨_, .node hr h1⟩
    | optional r id =>
      simp only [ways, List.mem_cons, List.not_mem_nil, or_false] at hw
      rcases hw with rfl | rfl
      · cases (show n = 0 from h)
        exact ⟨_, .optional_none⟩
      · obtain ⟨k, m, ts, rfl, h1, rfl⟩ := h
        exact ⟨_, .optional_some h1⟩
    | _ => exact (show False from hr).elim
  | seq rs =>
    cases rs with
    | nil =>
      simp only [ways, List.mem_singleton] at hw
      subst hw
      cases (show n = 0 from h)
      exact ⟨_, .seq_nil⟩
    | cons r rs =>
      simp only [ways, List.mem_singleton] at hw
      subst hw
      obtain ⟨k, m, ts, rfl, h1, k', m', us, rfl, h2, rfl⟩ := h
      exact ⟨_, .seq_cons h1 h2⟩
  | rep r =>
    simp only [ways, List.mem_cons, List.not_mem_nil, or_false] at hw
    rcases hw with rfl | rfl
    · cases (show n = 0 from h)
      exact ⟨_, .rep_nil⟩
    · obtain ⟨k, m, ts, rfl, h1, k', m', us, rfl, h2, rfl⟩ := h
      exact ⟨_, .rep_cons h1 h2⟩
  | sepTail r b trail =>
    simp only [ways, List.mem_append, List.mem_cons, List.not_mem_nil, or_false] at hw
    rcases hw with hw | rfl | rfl
    · cases trail with
      | false => simp at hw
      | true =>
        simp only [if_true, List.mem_singleton] at hw
        subst hw
        obtain ⟨k, m, ts, rfl, h1, rfl⟩ := h
        exact ⟨_, .tail_trail h1⟩
    · cases (show n = 0 from h)
      exact ⟨_, .tail_nil⟩
    · obtain ⟨l, m, rs, rfl, h1, k, m', ts, rfl, h2, k', m'', us, rfl, h3, rfl⟩ := h
      have e : adv (adv p l) k = adv p (l + k) := by simp [adv, Nat.add_assoc]
      rw [e] at h3
      have := Generates.tail_cons h1 h2 h3
      exact ⟨_, by simpa [Nat.add_assoc] using this⟩
  | _ => exact hg.elim

/-- What the symbols become is generated, whatever comes next. -/
theorem becomes_generates (ho : ∀ x, Part E.refs x → OnlyTags x) {s : List (Symbol Char Goal)} {w : Str}
    (h : Becomes (Production E.refs) s w) : ∀ rest off, GeneratesAll E s ⟨w ++ rest, off⟩ w.length := by
  induction h with
  | nil => exact fun _ _ => rfl
  | @term a s w _ ih =>
    intro rest off
    exact ⟨w.length, by simp; omega, rfl, ih rest (off + 1)⟩
  | @prod r s v w hr _ _ ih1 ih2 =>
    intro rest off
    obtain ⟨h1, h2⟩ := hr
    obtain ⟨ts, h3⟩ := generates_way ho h1 h2 (ih1 (w ++ rest) off)
    refine ⟨v.length, w.length, ts, by simp, by simpa using h3, ?_⟩
    have := ih2 rest (off + v.length)
    simpa [adv] using this

/-- What is generated is what the goal becomes. -/
theorem generates_becomes (ho : ∀ x, Part E.refs x → OnlyTags x) {g : Goal} {p : Pos} {n : Nat} {ts : List Tok}
    (h : Generates E g p n ts) (hg : GoalOf E.refs g) :
    n ≤ p.src.length ∧ Becomes (Production E.refs) [.nonterminal g] (p.src.take n) := by
  have one : ∀ {g : Goal} {out : List (Symbol Char Goal)} {w : Str}, GoalOf E.refs g → out ∈ ways E.refs g →
      Becomes (Production E.refs) out w → Becomes (Production E.refs) [.nonterminal g] w := by
    intro g out w h1 h2 h3
    have := Becomes.prod (R := Production E.refs) (r := ⟨g, out⟩) ⟨h1, h2⟩ h3 .nil
    simpa using this
  have two : ∀ {g g' : Goal} {p : Pos} {n m : Nat},
      (n ≤ p.src.length ∧ Becomes (Production E.refs) [.nonterminal g] (p.src.take n)) →
      (m ≤ (adv p n).src.length ∧ Becomes (Production E.refs) [.nonterminal g'] ((adv p n).src.take m)) →
      n + m ≤ p.src.length ∧ Becomes (Production E.refs) [.nonterminal g, .nonterminal g'] (p.src.take (n + m)) := by
    intro g g' p n m h1 h2
    simp only [adv, List.length_drop] at h2
    refine ⟨by omega, ?_⟩
    rw [List.take_add]
    exact h1.2.append h2.2
  induction h with
  | @token r p i n ts j tr hr h =>
    have hx := ho r hg
    cases r with
    | tag t no inv prop id =>
      cases (show no = false from hx)
      cases h with
      | tag_ok h =>
        obtain ⟨k, hk⟩ := h
        have : p.src = t ++ k := hk.symm
        refine ⟨by simp [this], one (out := t.map .terminal) hg (by simp [ways]) ?_⟩
        rw [this, List.take_left]
        exact becomes_word t
    | _ => first | exact (show False from hx).elim | exact (show False from hr).elim
  | absent => exact (ho _ hg).elim
  | select hr _ ih =>
    have ih := ih (show GoalOf E.refs (.rule _) from part_child hg (.select hr))
    exact ⟨ih.1, one hg (by simp only [ways, List.mem_map]; exact ⟨_, hr, rfl⟩) ih.2⟩
  | sequence _ ih =>
    have ih := ih ⟨[], _, hg⟩
    exact ⟨ih.1, one hg (by simp [ways]) ih.2⟩
  | seq_nil => exact ⟨Nat.zero_le _, one hg (by simp [ways]) .nil⟩
  | @seq_cons r rs _ _ _ _ _ _ _ ih1 ih2 =>
    obtain ⟨pre, id, hg'⟩ := hg
    have h := two (ih1 (part_child hg' (.sequence (by simp)))) (ih2 ⟨pre ++ [r], id, by simpa using hg'⟩)
    exact ⟨h.1, one ⟨pre, id, hg'⟩ (by simp [ways]) h.2⟩
  | repeat_any _ ih =>
    have ih := ih ⟨_, _, hg⟩
    exact ⟨ih.1, one hg (by simp [ways]) ih.2⟩
  | repeat_some _ _ ih1 ih2 =>
    have h := two (ih1 (part_child hg .repeat_)) (ih2 ⟨_, _, hg⟩)
    exact ⟨h.1, one hg (by simp [ways]) h.2⟩
  | rep_nil => exact ⟨Nat.zero_le _, one hg (by simp [ways]) .nil⟩
  | rep_cons _ _ ih1 ih2 =>
    have hg' := hg
    obtain ⟨opt, id, hg'⟩ := hg'
    have h := two (ih1 (part_child hg' .repeat_)) (ih2 hg)
    exact ⟨h.1, one hg (by simp [ways]) h.2⟩
  | sep_none => exact ⟨Nat.zero_le _, one hg (by simp [ways]) .nil⟩
  | sep_some _ _ ih1 ih2 =>
    have h := two (ih1 (part_child hg .item)) (ih2 ⟨_, _, hg⟩)
    exact ⟨h.1, one hg (by simp [ways]) h.2⟩
  | tail_nil => exact ⟨Nat.zero_le _, one hg (by simp [ways]) .nil⟩
  | tail_trail _ ih =>
    have hg' := hg
    obtain ⟨opt, id, hg'⟩ := hg'
    have ih := ih (part_child hg' .sep)
    exact ⟨ih.1, one hg (by simp [ways]) ih.2⟩
  | @tail_cons r b trail p l rs n ts m us _ _ _ ih1 ih2 ih3 =>
    have hg' := hg
    obtain ⟨opt, id, hg'⟩ := hg'
    have h := two (ih1 (part_child hg' .sep)) (ih2 (part_child hg' .item))
    have h3 := ih3 hg
    simp only [adv, List.length_drop] at h3
    refine ⟨by omega, one (out := [.nonterminal (.rule b), .nonterminal (.rule r), .nonterminal (.sepTail r b trail)]) hg
      (by simp [ways]) ?_⟩
    rw [List.take_add]
    exact h.2.append h3.2
  | node hr _ ih =>
    have ih := ih ⟨_, List.mem_of_getElem? hr, .refl⟩
    exact ⟨ih.1, one hg (by simp [ways, hr]) ih.2⟩
  | optional_none => exact ⟨Nat.zero_le _, one hg (by simp [ways]) .nil⟩
  | optional_some _ ih =>
    have ih := ih (part_child hg .optional)
    exact ⟨ih.1, one hg (by simp [ways]) ih.2⟩

/-- The grammar generates what the rule generates. -/
theorem grammarOf_language (ho : ∀ x, Part E.refs x → OnlyTags x) (hs : Part E.refs start) (text : Str) :
    text ∈ (grammarOf E.refs start).language ↔ ∃ ts, Generates E (.rule start) ⟨text, 0⟩ text.length ts := by
  rw [ContextFreeGrammar.mem_language_iff]
  constructor
  · intro h
    have h := derives_becomes h
    rw [grammarOf_rules] at h
    obtain ⟨k, m, ts, e, h1, rfl⟩ := becomes_generates ho h [] 0
    rw [List.append_nil] at h1
    exact ⟨ts, by rw [e]; exact h1⟩
  · rintro ⟨ts, h⟩
    have := (generates_becomes ho h hs).2
    rw [List.take_length] at this
    apply becomes_derives
    rw [grammarOf_rules]
    exact this

end

end Verif.Spec
