import Verif.Proofs.Sayable
import Verif.Proofs.Flat
import Verif.Props.Change
import Verif.Props.Renumber
import Verif.Spec.Safe
import Verif.Model.Refs
/-
Every syntax without tables, and without lists that forbid a separator at the end, is said by some
text, up to ids, the names of the nodes, and tokens under `not`.
-/
namespace Verif
open Spec

mutual
/-- No tables, no lists that forbid a separator at the end, references before `N`. -/
def Speakable (N : Nat) : Rule → Prop
  | .node _ _ (some ix) _ => ix < N
  | .fastSelect .. => False
  | .select rs _ => SpeakableL N rs
  | .sequence rs _ => SpeakableL N rs
  | .separateBy r b _ t _ => Speakable N r ∧ Speakable N b ∧ t = true
  | .repeat_ r _ _ => Speakable N r
  | .lines r _ _ => Speakable N r
  | .optional r _ => Speakable N r
  | .not r _ => Speakable N r
  | _ => True
def SpeakableL (N : Nat) : List Rule → Prop
  | [] => True
  | r :: rs => Speakable N r ∧ SpeakableL N rs
end

mutual
theorem speakable_of {refs : List Rule} : (r : Rule) → RuleOk refs r → Rule.NoTable r →
    (∀ x b opt id, ¬ Occurs (.separateBy x b opt false id) r) → Speakable refs.length r
  | .whitespace .., _, _, _ => trivial
  | .untilAnyOrWs .., _, _, _ => trivial
  | .untilAny .., _, _, _ => trivial
  | .tag .., _, _, _ => trivial
  | .text .., _, _, _ => trivial
  | .number .., _, _, _ => trivial
  | .node _ _ none _, _, _, _ => trivial
  | .node _ _ (some _) _, h, _, _ => h _ .refl
  | .sequence rs _, h, ht, hs => speakableL_of rs (fun r hr x hx => h x (.step hx (.sequence hr))) ht
      fun r hr x b o i hx => hs x b o i (.step hx (.sequence hr))
  | .select rs _, h, ht, hs => speakableL_of rs (fun r hr x hx => h x (.step hx (.select hr))) ht
      fun r hr x b o i hx => hs x b o i (.step hx (.select hr))
  | .fastSelect .., _, ht, _ => ht.elim
  | .optional r _, h, ht, hs => speakable_of r (fun x hx => h x (.step hx .optional)) ht
      fun x b o i hx => hs x b o i (.step hx .optional)
  | .not r _, h, ht, hs => speakable_of r (fun x hx => h x (.step hx .not)) ht
      fun x b o i hx => hs x b o i (.step hx .not)
  | .lines r _ _, h, ht, hs => speakable_of r (fun x hx => h x (.step hx .lines)) ht
      fun x b o i hx => hs x b o i (.step hx .lines)
  | .repeat_ r _ _, h, ht, hs => speakable_of r (fun x hx => h x (.step hx .repeat_)) ht
      fun x b o i hx => hs x b o i (.step hx .repeat_)
  | .separateBy r b o t id, h, ht, hs =>
    ⟨speakable_of r (fun x hx => h x (.step hx .item)) ht.1 fun x b o i hx => hs x b o i (.step hx .item),
     speakable_of b (fun x hx => h x (.step hx .sep)) ht.2 fun x b o i hx => hs x b o i (.step hx .sep), by
      cases t with
      | true => rfl
      | false => exact absurd .refl (hs r b o id)⟩
theorem speakableL_of {refs : List Rule} : (rs : List Rule) → (∀ r ∈ rs, RuleOk refs r) → Rule.NoTableL rs →
    (∀ r ∈ rs, ∀ x b opt id, ¬ Occurs (.separateBy x b opt false id) r) → SpeakableL refs.length rs
  | [], _, _, _ => trivial
  | r :: rs, h, ht, hs => ⟨speakable_of r (h r (by simp)) ht.1 (hs r (by simp)),
      speakableL_of rs (fun r hr => h r (by simp [hr])) ht.2 fun r hr => hs r (by simp [hr])⟩
end

/-! ### Tokens under `not` -/

def wrapToken : Rule → Rule
  | .tag t false inv p id => .sequence [.tag t false inv p id] id
  | r => r

/-- A token that is wanted, and a sequence of nothing else. -/
def TokenSeq (r r' : Rule) : Prop := ∃ id, r' = .sequence [r] id

mutual
/-- A token that is wanted becomes a sequence under `not`. -/
def wrap : Rule → Rule
  | .sequence rs id => .sequence (wrapAll rs) id
  | .select rs id => .select (wrapAll rs) id
  | .optional r id => .optional (wrap r) id
  | .not r id => .not (wrapToken (wrap r)) id
  | .separateBy r b o t id => .separateBy (wrap r) (wrap b) o t id
  | .lines r i id => .lines (wrap r) i id
  | .repeat_ r o id => .repeat_ (wrap r) o id
  | r => r
def wrapAll : List Rule → List Rule
  | [] => []
  | r :: rs => wrap r :: wrapAll rs
end

theorem wrap_tag {r : Rule} {t inv p id} (h : wrap r = .tag t false inv p id) : r = .tag t false inv p id := by
  cases r <;> simp only [wrap, reduceCtorEq] at h <;> exact h

mutual
theorem wrap_rewrite : (r : Rule) → Rewrite TokenSeq r (wrap r)
  | .whitespace .. => .keep
  | .untilAnyOrWs .. => .keep
  | .untilAny .. => .keep
  | .tag .. => .keep
  | .text .. => .keep
  | .number .. => .keep
  | .node .. => .keep
  | .fastSelect .. => .keep
  | .sequence rs _ => .sequence (wrapAll_rewrite rs)
  | .select rs _ => .select (wrapAll_rewrite rs)
  | .optional r _ => .optional (wrap_rewrite r)
  | .not r _ => by
    refine .not ?_
    by_cases h : ∃ t inv p id, r = .tag t false inv p id
    · obtain ⟨t, inv, p, id, rfl⟩ := h
      exact .law ⟨_, rfl⟩
    · have : wrapToken (wrap r) = wrap r := by
        unfold wrapToken
        split
        · rename_i t inv p id e
          exact absurd ⟨t, inv, p, id, wrap_tag e⟩ h
        · rfl
      rw [this]
      exact wrap_rewrite r
  | .separateBy r b _ _ _ => .separateBy (wrap_rewrite r) (wrap_rewrite b)
  | .lines r _ _ => .lines (wrap_rewrite r)
  | .repeat_ r _ _ => .repeat_ (wrap_rewrite r)
theorem wrapAll_rewrite : (rs : List Rule) → RewriteL TokenSeq rs (wrapAll rs)
  | [] => .nil
  | r :: rs => .cons (wrap_rewrite r) (wrapAll_rewrite rs)
end

theorem wrapToken_speakable {N : Nat} {r : Rule} (h : Speakable N r) : Speakable N (wrapToken r) := by
  unfold wrapToken
  split
  · exact ⟨trivial, trivial⟩
  · exact h

theorem wrapToken_ids (r : Rule) : (Rule.ids (wrapToken r)).length ≤ (Rule.ids r).length + 1 := by
  unfold wrapToken
  split <;> simp [Rule.ids, Rule.idsL]

mutual
theorem wrap_speakable {N : Nat} : (r : Rule) → Speakable N r → Speakable N (wrap r)
  | .whitespace .., h => h
  | .untilAnyOrWs .., h => h
  | .untilAny .., h => h
  | .tag .., h => h
  | .text .., h => h
  | .number .., h => h
  | .node .., h => h
  | .fastSelect .., h => h
  | .sequence rs _, h => wrapAll_speakable rs h
  | .select rs _, h => wrapAll_speakable rs h
  | .optional r _, h => wrap_speakable r h
  | .not r _, h => wrapToken_speakable (wrap_speakable r h)
  | .separateBy r b _ _ _, h => ⟨wrap_speakable r h.1, wrap_speakable b h.2.1, h.2.2⟩
  | .lines r _ _, h => wrap_speakable r h
  | .repeat_ r _ _, h => wrap_speakable r h
theorem wrapAll_speakable {N : Nat} : (rs : List Rule) → SpeakableL N rs → SpeakableL N (wrapAll rs)
  | [], _ => trivial
  | r :: rs, h => ⟨wrap_speakable r h.1, wrapAll_speakable rs h.2⟩
end

mutual
theorem wrap_ids : (r : Rule) → (Rule.ids (wrap r)).length ≤ 2 * (Rule.ids r).length
  | .whitespace .. => by simp [wrap, Rule.ids]
  | .untilAnyOrWs .. => by simp [wrap, Rule.ids]
  | .untilAny .. => by simp [wrap, Rule.ids]
  | .tag .. => by simp [wrap, Rule.ids]
  | .text .. => by simp [wrap, Rule.ids]
  | .number .. => by simp [wrap, Rule.ids]
  | .node .. => by simp [wrap, Rule.ids]
  | .fastSelect .. => by simp only [wrap]; omega
  | .sequence rs _ => by
    have := wrapAll_ids rs
    simp only [wrap, Rule.ids, List.length_append, List.length_singleton]; omega
  | .select rs _ => by
    have := wrapAll_ids rs
    simp only [wrap, Rule.ids, List.length_append, List.length_singleton]; omega
  | .optional r _ => by
    have := wrap_ids r
    simp only [wrap, Rule.ids, List.length_append, List.length_singleton]; omega
  | .not r _ => by
    have := wrap_ids r
    have := wrapToken_ids (wrap r)
    simp only [wrap, Rule.ids, List.length_append, List.length_singleton]; omega
  | .separateBy r b _ _ _ => by
    have := wrap_ids r
    have := wrap_ids b
    simp only [wrap, Rule.ids, List.length_append, List.length_singleton]; omega
  | .lines r _ _ => by
    have := wrap_ids r
    simp only [wrap, Rule.ids, List.length_append, List.length_singleton]; omega
  | .repeat_ r _ _ => by
    have := wrap_ids r
    simp only [wrap, Rule.ids, List.length_append, List.length_singleton]; omega
theorem wrapAll_ids : (rs : List Rule) → (Rule.idsL (wrapAll rs)).length ≤ 2 * (Rule.idsL rs).length
  | [] => by simp [wrapAll, Rule.idsL]
  | r :: rs => by
    have := wrap_ids r
    have := wrapAll_ids rs
    simp only [wrapAll, Rule.idsL, List.length_append]; omega
end

/-! ### Names -/

/-- The name of the rule with this number. -/
def nameOf (ix : Nat) : Str := List.replicate (ix + 1) 'n'

def namesOf : (from_ count : Nat) → List Str
  | _, 0 => []
  | a, n + 1 => nameOf a :: namesOf (a + 1) n

theorem nameOf_inj {a b : Nat} (h : nameOf a = nameOf b) : a = b := by
  have := congrArg List.length h
  simp [nameOf] at this
  exact this

theorem findName_of : ∀ (n a ix : Nat), a ≤ ix → ix < a + n → findName (nameOf ix) a (namesOf a n) = some ix
  | 0, a, ix, h, h' => by omega
  | n + 1, a, ix, h, h' => by
    simp only [namesOf, findName]
    by_cases e : ix = a
    · subst e; simp
    · rw [if_neg fun h => e (nameOf_inj h)]
      exact findName_of n (a + 1) ix (by omega) (by omega)

theorem findName_x : ∀ (n a : Nat), findName c!"x" a (namesOf a n) = none
  | 0, a => rfl
  | n + 1, a => by
    simp only [namesOf, findName]
    rw [if_neg, findName_x n (a + 1)]
    simp [nameOf, List.replicate_succ]

theorem nameOf_good (ix : Nat) : GoodName (nameOf ix) := by
  refine ⟨⟨by simp [nameOf], fun c hc => ?_⟩, by simp [nameOf, List.replicate_succ]⟩
  rw [List.eq_of_mem_replicate hc]
  exact ⟨by decide, by decide⟩

theorem x_good : GoodName c!"x" := by
  refine ⟨⟨by decide, ?_⟩, by decide⟩
  simp only [List.mem_singleton, forall_eq]
  exact ⟨by decide, by decide⟩

mutual
/-- The rule with names that tell the places of the rules. -/
def rename : Rule → Rule
  | .node _ p (some ix) id => .node (nameOf ix) p none id
  | .node _ p none id => .node c!"x" p none id
  | .sequence rs id => .sequence (renameAll rs) id
  | .select rs id => .select (renameAll rs) id
  | .optional r id => .optional (rename r) id
  | .not r id => .not (rename r) id
  | .separateBy r b o t id => .separateBy (rename r) (rename b) o t id
  | .lines r i id => .lines (rename r) i id
  | .repeat_ r o id => .repeat_ (rename r) o id
  | r => r
def renameAll : List Rule → List Rule
  | [] => []
  | r :: rs => rename r :: renameAll rs
end

mutual
theorem rename_ids : (r : Rule) → Rule.ids (rename r) = Rule.ids r
  | .whitespace .. => rfl
  | .untilAnyOrWs .. => rfl
  | .untilAny .. => rfl
  | .tag .. => rfl
  | .text .. => rfl
  | .number .. => rfl
  | .node _ _ none _ => rfl
  | .node _ _ (some _) _ => rfl
  | .fastSelect .. => rfl
  | .sequence rs _ => by simp [rename, Rule.ids, renameAll_ids rs]
  | .select rs _ => by simp [rename, Rule.ids, renameAll_ids rs]
  | .optional r _ => by simp [rename, Rule.ids, rename_ids r]
  | .not r _ => by simp [rename, Rule.ids, rename_ids r]
  | .separateBy r b _ _ _ => by simp [rename, Rule.ids, rename_ids r, rename_ids b]
  | .lines r _ _ => by simp [rename, Rule.ids, rename_ids r]
  | .repeat_ r _ _ => by simp [rename, Rule.ids, rename_ids r]
theorem renameAll_ids : (rs : List Rule) → Rule.idsL (renameAll rs) = Rule.idsL rs
  | [] => rfl
  | r :: rs => by simp [renameAll, Rule.idsL, rename_ids r, renameAll_ids rs]
end

theorem rename_tag : {r : Rule} → {t : Str} → {inv : Bool} → {p : Option Str} → {id : DebugId} →
    rename r = .tag t false inv p id → r = .tag t false inv p id
  | .node _ _ none _, _, _, _, _, h => by simp [rename] at h
  | .node _ _ (some _) _, _, _, _, _, h => by simp [rename] at h
  | .whitespace .., _, _, _, _, h => h
  | .untilAnyOrWs .., _, _, _, _, h => h
  | .untilAny .., _, _, _, _, h => h
  | .tag .., _, _, _, _, h => h
  | .text .., _, _, _, _, h => h
  | .number .., _, _, _, _, h => h
  | .fastSelect .., _, _, _, _, h => h
  | .sequence .., _, _, _, _, h => by simp [rename] at h
  | .select .., _, _, _, _, h => by simp [rename] at h
  | .optional .., _, _, _, _, h => by simp [rename] at h
  | .not .., _, _, _, _, h => by simp [rename] at h
  | .separateBy .., _, _, _, _, h => by simp [rename] at h
  | .lines .., _, _, _, _, h => by simp [rename] at h
  | .repeat_ .., _, _, _, _, h => by simp [rename] at h

theorem wrapToken_tag {r : Rule} {t inv p id} : wrapToken r ≠ .tag t false inv p id := by
  unfold wrapToken
  split
  · simp
  · rename_i h
    rintro rfl
    exact h _ _ _ _ rfl

theorem wrapToken_sayable {r : Rule} (h : Sayable (rename r)) : Sayable (rename (wrapToken r)) := by
  unfold wrapToken
  split
  · exact ⟨trivial, trivial⟩
  · exact h

mutual
theorem renamed_sayable {N : Nat} : (r : Rule) → Speakable N r → Sayable (rename (wrap r))
  | .whitespace .., _ => trivial
  | .untilAnyOrWs .., _ => trivial
  | .untilAny .., _ => trivial
  | .tag .., _ => trivial
  | .text .., _ => trivial
  | .number .., _ => trivial
  | .node _ _ none _, _ => x_good
  | .node _ _ (some ix) _, _ => nameOf_good ix
  | .fastSelect .., h => h.elim
  | .sequence rs _, h => renamed_sayableAll rs h
  | .select rs _, h => renamed_sayableAll rs h
  | .optional r _, h => renamed_sayable r h
  | .not r _, h => ⟨wrapToken_sayable (renamed_sayable r h), fun _ _ _ _ e => wrapToken_tag (rename_tag e)⟩
  | .separateBy r b _ _ _, h => ⟨renamed_sayable r h.1, renamed_sayable b h.2.1, h.2.2⟩
  | .lines r _ _, h => renamed_sayable r h
  | .repeat_ r _ _, h => renamed_sayable r h
theorem renamed_sayableAll {N : Nat} : (rs : List Rule) → SpeakableL N rs → SayableAll (renameAll (wrapAll rs))
  | [], _ => trivial
  | r :: rs, h => ⟨renamed_sayable r h.1, renamed_sayableAll rs h.2⟩
end

mutual
/-- What is read is the rule, after its references have been resolved. -/
theorem resolved_said {N : Nat} : (r r' : Rule) → Speakable N r → renumber (fun _ => 0) r' = bare (rename r) →
    Renumbered (fun _ _ => True) r (r'.updateRefs (namesOf 0 N))
  | .whitespace .., r', _, e => by
    cases r' <;> simp [renumber, rename, bare] at e
    subst e
    exact .whitespace trivial
  | .untilAnyOrWs .., r', _, e => by
    cases r' <;> simp [renumber, rename, bare] at e
    obtain ⟨rfl, rfl, rfl⟩ := e
    exact .untilAnyOrWs trivial
  | .untilAny .., r', _, e => by
    cases r' <;> simp [renumber, rename, bare] at e
    obtain ⟨rfl, rfl, rfl⟩ := e
    exact .untilAny trivial
  | .tag .., r', _, e => by
    cases r' <;> simp [renumber, rename, bare] at e
    obtain ⟨rfl, rfl, rfl, rfl⟩ := e
    exact .tag trivial
  | .text .., r', _, e => by
    cases r' <;> simp [renumber, rename, bare] at e
    obtain ⟨rfl, rfl⟩ := e
    exact .text trivial
  | .number .., r', _, e => by
    cases r' <;> simp [renumber, rename, bare] at e
    obtain ⟨rfl, rfl⟩ := e
    exact .number trivial
  | .node _ _ none _, r', _, e => by
    cases r' <;> simp [renumber, rename, bare] at e
    obtain ⟨rfl, rfl, rfl⟩ := e
    rw [Rule.updateRefs, findName_x]
    exact .node trivial
  | .node _ _ (some ix) _, r', h, e => by
    cases r' <;> simp [renumber, rename, bare] at e
    obtain ⟨rfl, rfl, rfl⟩ := e
    rw [Rule.updateRefs, findName_of _ _ _ (Nat.zero_le _) (by simpa [Speakable] using h)]
    exact .node trivial
  | .fastSelect .., _, h, _ => h.elim
  | .sequence rs _, r', h, e => by
    cases r' <;> simp [renumber, rename, bare] at e
    rw [Rule.updateRefs]
    exact .sequence trivial (resolved_saidL rs _ h e)
  | .select rs _, r', h, e => by
    cases r' <;> simp [renumber, rename, bare] at e
    rw [Rule.updateRefs]
    exact .select trivial (resolved_saidL rs _ h e)
  | .optional r _, r', h, e => by
    cases r' <;> simp [renumber, rename, bare] at e
    rw [Rule.updateRefs]
    exact .optional trivial (resolved_said r _ h e)
  | .not r _, r', h, e => by
    cases r' <;> simp [renumber, rename, bare] at e
    rw [Rule.updateRefs]
    exact .not trivial (resolved_said r _ h e)
  | .separateBy r b _ _ _, r', h, e => by
    cases r' <;> simp [renumber, rename, bare] at e
    obtain ⟨e1, e2, rfl, rfl⟩ := e
    rw [Rule.updateRefs]
    exact .separateBy trivial (resolved_said r _ h.1 e1) (resolved_said b _ h.2.1 e2)
  | .lines r _ _, r', h, e => by
    cases r' <;> simp [renumber, rename, bare] at e
    obtain ⟨e1, rfl⟩ := e
    rw [Rule.updateRefs]
    exact .lines trivial (resolved_said r _ h e1)
  | .repeat_ r _ _, r', h, e => by
    cases r' <;> simp [renumber, rename, bare] at e
    obtain ⟨e1, rfl⟩ := e
    rw [Rule.updateRefs]
    exact .repeat_ trivial (resolved_said r _ h e1)
theorem resolved_saidL {N : Nat} : (rs rs' : List Rule) → SpeakableL N rs → renumberAll (fun _ => 0) rs' = bareAll (renameAll rs) →
    RenumberedL (fun _ _ => True) rs (Rule.updateRefsL (namesOf 0 N) rs')
  | [], [], _, _ => .nil
  | [], _ :: _, _, e => by simp [renumberAll, renameAll, bareAll] at e
  | _ :: _, [], _, e => by simp [renumberAll, renameAll, bareAll] at e
  | r :: rs, r' :: rs', h, e => by
    simp only [renumberAll, renameAll, bareAll, List.cons.injEq] at e
    exact .cons (resolved_said r r' h.1 e.1) (resolved_saidL rs rs' h.2 e.2)
end

/-- The rules of a syntax with names of the notation. -/
def spoken : (from_ : Nat) → List Rule → List (Str × Rule)
  | _, [] => []
  | a, r :: rs => (nameOf a, rename (wrap r)) :: spoken (a + 1) rs

theorem spoken_names : ∀ (a : Nat) (rs : List Rule), (spoken a rs).map (·.1) = namesOf a rs.length
  | _, [] => rfl
  | a, r :: rs => by simp [spoken, namesOf, spoken_names (a + 1) rs]

theorem spoken_mem : ∀ {a : Nat} {rs : List Rule} {x : Str × Rule}, x ∈ spoken a rs →
    (∃ ix, x.1 = nameOf ix) ∧ ∃ r ∈ rs, x.2 = rename (wrap r)
  | _, [], _, h => by simp [spoken] at h
  | a, r :: rs, x, h => by
    rcases List.mem_cons.1 h with rfl | h
    · exact ⟨⟨a, rfl⟩, r, by simp, rfl⟩
    · obtain ⟨h1, r, h2, h3⟩ := spoken_mem h
      exact ⟨h1, r, by simp [h2], h3⟩

theorem spoken_resolved {N : Nat} : ∀ {a : Nat} {rs : List Rule} {rs' : List (Str × Rule)},
    (∀ r ∈ rs, Speakable N r) →
    rs'.map (fun x => (x.1, renumber (fun _ => 0) x.2)) = (spoken a rs).map (fun x => (x.1, bare x.2)) →
    RenumberedL (fun _ _ => True) (rs.map wrap) (rs'.map fun x => x.2.updateRefs (namesOf 0 N))
  | _, [], [], _, _ => .nil
  | _, [], _ :: _, _, e => by simp [spoken] at e
  | _, _ :: _, [], _, e => by simp [spoken] at e
  | a, r :: rs, x :: rs', h, e => by
    simp only [spoken, List.map_cons, List.cons.injEq, Prod.mk.injEq] at e
    exact .cons (resolved_said _ _ (wrap_speakable r (h r (by simp))) e.1.2)
      (spoken_resolved (fun r hr => h r (by simp [hr])) e.2)

theorem map_names {f g : Rule → Rule} {rs rs' : List (Str × Rule)}
    (h : rs'.map (fun x => (x.1, f x.2)) = rs.map (fun x => (x.1, g x.2))) : rs'.map (·.1) = rs.map (·.1) := by
  have := congrArg (List.map Prod.fst) h
  simpa [Function.comp_def] using this

/-! ### Lists that forbid a separator at the end -/

/-- A list that forbids a separator at the end, said otherwise. -/
def unlistOne (r b : Rule) (opt : Bool) (id : DebugId) : Rule :=
  if opt then .select [.sequence [r, .repeat_ (.sequence [b, r] id) true id, .not b id] id, .not r id] id
  else .sequence [r, .repeat_ (.sequence [b, r] id) true id, .not b id] id

mutual
/-- The rule without lists that forbid a separator at the end. -/
def unlist : Rule → Rule
  | .sequence rs id => .sequence (unlistAll rs) id
  | .select rs id => .select (unlistAll rs) id
  | .optional r id => .optional (unlist r) id
  | .not r id => .not (unlist r) id
  | .separateBy r b o true id => .separateBy (unlist r) (unlist b) o true id
  | .separateBy r b o false id => unlistOne (unlist r) (unlist b) o id
  | .lines r i id => .lines (unlist r) i id
  | .repeat_ r o id => .repeat_ (unlist r) o id
  | r => r
def unlistAll : List Rule → List Rule
  | [] => []
  | r :: rs => unlist r :: unlistAll rs
end

mutual
/-- No tables, references before `N`, no indented lines. -/
def Tame (N : Nat) : Rule → Prop
  | .node _ _ (some ix) _ => ix < N
  | .fastSelect .. => False
  | .select rs _ => TameL N rs
  | .sequence rs _ => TameL N rs
  | .separateBy r b _ _ _ => Tame N r ∧ Tame N b
  | .repeat_ r _ _ => Tame N r
  | .lines r i _ => Tame N r ∧ i = false
  | .optional r _ => Tame N r
  | .not r _ => Tame N r
  | _ => True
def TameL (N : Nat) : List Rule → Prop
  | [] => True
  | r :: rs => Tame N r ∧ TameL N rs
end

mutual
theorem tame_of {refs : List Rule} : (r : Rule) → RuleOk refs r → Rule.NoTable r → Flat r → Tame refs.length r
  | .whitespace .., _, _, _ => trivial
  | .untilAnyOrWs .., _, _, _ => trivial
  | .untilAny .., _, _, _ => trivial
  | .tag .., _, _, _ => trivial
  | .text .., _, _, _ => trivial
  | .number .., _, _, _ => trivial
  | .node _ _ none _, _, _, _ => trivial
  | .node _ _ (some _) _, h, _, _ => h _ .refl
  | .sequence rs _, h, ht, hf => tameL_of rs (fun r hr x hx => h x (.step hx (.sequence hr))) ht
      fun r hr => flat_child hf (.sequence hr)
  | .select rs _, h, ht, hf => tameL_of rs (fun r hr x hx => h x (.step hx (.select hr))) ht
      fun r hr => flat_child hf (.select hr)
  | .fastSelect .., _, ht, _ => ht.elim
  | .optional r _, h, ht, hf => tame_of r (fun x hx => h x (.step hx .optional)) ht (flat_child hf .optional)
  | .not r _, h, ht, hf => tame_of r (fun x hx => h x (.step hx .not)) ht (flat_child hf .not)
  | .lines r _ _, h, ht, hf => ⟨tame_of r (fun x hx => h x (.step hx .lines)) ht (flat_child hf .lines), flat_lines hf⟩
  | .repeat_ r _ _, h, ht, hf => tame_of r (fun x hx => h x (.step hx .repeat_)) ht (flat_child hf .repeat_)
  | .separateBy r b _ _ _, h, ht, hf =>
    ⟨tame_of r (fun x hx => h x (.step hx .item)) ht.1 (flat_child hf .item),
     tame_of b (fun x hx => h x (.step hx .sep)) ht.2 (flat_child hf .sep)⟩
theorem tameL_of {refs : List Rule} : (rs : List Rule) → (∀ r ∈ rs, RuleOk refs r) → Rule.NoTableL rs →
    (∀ r ∈ rs, Flat r) → TameL refs.length rs
  | [], _, _, _ => trivial
  | r :: rs, h, ht, hf => ⟨tame_of r (h r (by simp)) ht.1 (hf r (by simp)),
      tameL_of rs (fun r hr => h r (by simp [hr])) ht.2 fun r hr => hf r (by simp [hr])⟩
end

theorem tameL_mem {N : Nat} : {rs : List Rule} → TameL N rs → ∀ r ∈ rs, Tame N r
  | [], _ => by simp
  | r :: rs, h => by
    intro x hx
    rcases List.mem_cons.1 hx with rfl | hx
    · exact h.1
    · exact tameL_mem h.2 x hx

theorem tame_child {N : Nat} {c r : Rule} (h : Tame N r) (hc : Child c r) : Tame N c := by
  cases hc with
  | select hm => exact tameL_mem h _ hm
  | fast hm => exact h.elim
  | sequence hm => exact tameL_mem h _ hm
  | item => exact h.1
  | sep => exact h.2
  | repeat_ => exact h
  | lines => exact h.1
  | optional => exact h
  | not => exact h

theorem tame_occurs {N : Nat} {x r : Rule} (ho : Occurs x r) : Tame N r → Tame N x := by
  induction ho with
  | refl => exact id
  | step _ hc ih => exact fun h => ih (tame_child h hc)

theorem tame_flat {N : Nat} {r : Rule} (h : Tame N r) : Flat r := by
  intro x id ho
  exact absurd (tame_occurs ho h).2 (by simp)

theorem tame_ok {refs : List Rule} {r : Rule} (h : Tame refs.length r) : RuleOk refs r := by
  intro x hx
  have := tame_occurs hx h
  cases x with
  | node n p ix id =>
    cases ix with
    | none => trivial
    | some ix => exact this
  | fastSelect => exact this.elim
  | _ => trivial

theorem unlistOne_tame {N : Nat} {r b : Rule} {o : Bool} {id : DebugId} (hr : Tame N r) (hb : Tame N b) :
    Tame N (unlistOne r b o id) := by
  cases o <;> simp [unlistOne, Tame, TameL, hr, hb]

mutual
theorem unlist_tame {N : Nat} : (r : Rule) → Tame N r → Tame N (unlist r)
  | .whitespace .., h => h
  | .untilAnyOrWs .., h => h
  | .untilAny .., h => h
  | .tag .., h => h
  | .text .., h => h
  | .number .., h => h
  | .node .., h => h
  | .fastSelect .., h => h
  | .sequence rs _, h => unlistAll_tame rs h
  | .select rs _, h => unlistAll_tame rs h
  | .optional r _, h => unlist_tame r h
  | .not r _, h => unlist_tame r h
  | .separateBy r b _ true _, h => ⟨unlist_tame r h.1, unlist_tame b h.2⟩
  | .separateBy r b _ false _, h => unlistOne_tame (unlist_tame r h.1) (unlist_tame b h.2)
  | .lines r _ _, h => ⟨unlist_tame r h.1, h.2⟩
  | .repeat_ r _ _, h => unlist_tame r h
theorem unlistAll_tame {N : Nat} : (rs : List Rule) → TameL N rs → TameL N (unlistAll rs)
  | [], _ => trivial
  | r :: rs, h => ⟨unlist_tame r h.1, unlistAll_tame rs h.2⟩
end

theorem unlistOne_speakable {N : Nat} {r b : Rule} {o : Bool} {id : DebugId} (hr : Speakable N r) (hb : Speakable N b) :
    Speakable N (unlistOne r b o id) := by
  cases o <;> simp [unlistOne, Speakable, SpeakableL, hr, hb]

mutual
theorem unlist_speakable {N : Nat} : (r : Rule) → Tame N r → Speakable N (unlist r)
  | .whitespace .., _ => trivial
  | .untilAnyOrWs .., _ => trivial
  | .untilAny .., _ => trivial
  | .tag .., _ => trivial
  | .text .., _ => trivial
  | .number .., _ => trivial
  | .node _ _ none _, _ => trivial
  | .node _ _ (some _) _, h => h
  | .fastSelect .., h => h.elim
  | .sequence rs _, h => unlistAll_speakable rs h
  | .select rs _, h => unlistAll_speakable rs h
  | .optional r _, h => unlist_speakable r h
  | .not r _, h => unlist_speakable r h
  | .separateBy r b _ true _, h => ⟨unlist_speakable r h.1, unlist_speakable b h.2, rfl⟩
  | .separateBy r b _ false _, h => unlistOne_speakable (unlist_speakable r h.1) (unlist_speakable b h.2)
  | .lines r _ _, h => unlist_speakable r h.1
  | .repeat_ r _ _, h => unlist_speakable r h
theorem unlistAll_speakable {N : Nat} : (rs : List Rule) → TameL N rs → SpeakableL N (unlistAll rs)
  | [], _ => trivial
  | r :: rs, h => ⟨unlist_speakable r h.1, unlistAll_speakable rs h.2⟩
end

/-- A list that forbids a separator at the end, and what is said instead. -/
def ListLaw (x y : Rule) : Prop :=
  ∃ r b o id, Flat r ∧ Flat b ∧ x = .separateBy r b o false id ∧ y = unlistOne r b o id

theorem listLaw_reads {E : Env} (hn : NoIndent E.refs) {x y : Rule} (h : ListLaw x y) : SameReading E x y := by
  obtain ⟨r, b, o, id, hr, hb, rfl, rfl⟩ := h
  cases o with
  | false => exact list_as_repeat hn hr hb false id id id id id
  | true => exact list_opt_as_repeat hn hr hb false id id id id id id id

mutual
theorem unlist_change {N : Nat} : (r : Rule) → Tame N r → Change ListLaw r (unlist r)
  | .whitespace .., _ => .keep
  | .untilAnyOrWs .., _ => .keep
  | .untilAny .., _ => .keep
  | .tag .., _ => .keep
  | .text .., _ => .keep
  | .number .., _ => .keep
  | .node .., _ => .keep
  | .fastSelect .., h => h.elim
  | .sequence rs _, h => .sequence (unlistAll_change rs h)
  | .select rs _, h => .select (unlistAll_change rs h)
  | .optional r _, h => .optional (unlist_change r h)
  | .not r _, h => .not (unlist_change r h)
  | .separateBy r b _ true _, h => .separateBy (unlist_change r h.1) (unlist_change b h.2)
  | .separateBy r b _ false _, h => .law (.separateBy (unlist_change r h.1) (unlist_change b h.2))
      ⟨_, _, _, _, tame_flat (unlist_tame r h.1), tame_flat (unlist_tame b h.2), rfl, rfl⟩
  | .lines r _ _, h => .lines (unlist_change r h.1)
  | .repeat_ r _ _, h => .repeat_ (unlist_change r h)
theorem unlistAll_change {N : Nat} : (rs : List Rule) → TameL N rs → ChangeL ListLaw rs (unlistAll rs)
  | [], _ => .nil
  | r :: rs, h => .cons (unlist_change r h.1) (unlistAll_change rs h.2)
end

theorem unlistOne_change {Q} {r b r' b' : Rule} {o : Bool} {id : DebugId} (hr : Change Q r' r) (hb : Change Q b' b) :
    Change Q (unlistOne r' b' o id) (unlistOne r b o id) := by
  have h : Change Q (.sequence [r', .repeat_ (.sequence [b', r'] id) true id, .not b' id] id)
      (.sequence [r, .repeat_ (.sequence [b, r] id) true id, .not b id] id) :=
    .sequence (.cons hr (.cons (.repeat_ (.sequence (.cons hb (.cons hr .nil)))) (.cons (.not hb) .nil)))
  cases o with
  | false => exact h
  | true => exact .select (.cons h (.cons (.not hr) .nil))

mutual
theorem unlist_back {N : Nat} : (r : Rule) → Tame N r → Change (fun a b => ListLaw b a) (unlist r) r
  | .whitespace .., _ => .keep
  | .untilAnyOrWs .., _ => .keep
  | .untilAny .., _ => .keep
  | .tag .., _ => .keep
  | .text .., _ => .keep
  | .number .., _ => .keep
  | .node .., _ => .keep
  | .fastSelect .., h => h.elim
  | .sequence rs _, h => .sequence (unlistAll_back rs h)
  | .select rs _, h => .select (unlistAll_back rs h)
  | .optional r _, h => .optional (unlist_back r h)
  | .not r _, h => .not (unlist_back r h)
  | .separateBy r b _ true _, h => .separateBy (unlist_back r h.1) (unlist_back b h.2)
  | .separateBy r b _ false _, h => .law (unlistOne_change (unlist_back r h.1) (unlist_back b h.2))
      ⟨_, _, _, _, tame_flat h.1, tame_flat h.2, rfl, rfl⟩
  | .lines r _ _, h => .lines (unlist_back r h.1)
  | .repeat_ r _ _, h => .repeat_ (unlist_back r h)
theorem unlistAll_back {N : Nat} : (rs : List Rule) → TameL N rs → ChangeL (fun a b => ListLaw b a) (unlistAll rs) rs
  | [], _ => .nil
  | r :: rs, h => .cons (unlist_back r h.1) (unlistAll_back rs h.2)
end

theorem unlistAll_length : (rs : List Rule) → (unlistAll rs).length = rs.length
  | [] => rfl
  | _ :: rs => by simp [unlistAll, unlistAll_length rs]

mutual
theorem unlist_ids : (r : Rule) → Rule.NoTable r → (Rule.ids (unlist r)).length = partsNeeded r
  | .whitespace .., _ => rfl
  | .untilAnyOrWs .., _ => rfl
  | .untilAny .., _ => rfl
  | .tag .., _ => rfl
  | .text .., _ => rfl
  | .number .., _ => rfl
  | .node .., _ => rfl
  | .fastSelect .., h => h.elim
  | .sequence rs _, h => by simp [unlist, Rule.ids, partsNeeded, unlistAll_ids rs h]
  | .select rs _, h => by simp [unlist, Rule.ids, partsNeeded, unlistAll_ids rs h]
  | .optional r _, h => by simp [unlist, Rule.ids, partsNeeded, unlist_ids r h]
  | .not r _, h => by simp [unlist, Rule.ids, partsNeeded, unlist_ids r h]
  | .separateBy r b _ true _, h => by
    simp [unlist, Rule.ids, partsNeeded, unlist_ids r h.1, unlist_ids b h.2]; omega
  | .separateBy r b false false _, h => by
    simp [unlist, unlistOne, Rule.ids, Rule.idsL, partsNeeded, unlist_ids r h.1, unlist_ids b h.2]; omega
  | .separateBy r b true false _, h => by
    simp [unlist, unlistOne, Rule.ids, Rule.idsL, partsNeeded, unlist_ids r h.1, unlist_ids b h.2]; omega
  | .lines r _ _, h => by simp [unlist, Rule.ids, partsNeeded, unlist_ids r h]
  | .repeat_ r _ _, h => by simp [unlist, Rule.ids, partsNeeded, unlist_ids r h]
theorem unlistAll_ids : (rs : List Rule) → Rule.NoTableL rs → (Rule.idsL (unlistAll rs)).length = partsNeededAll rs
  | [], _ => rfl
  | r :: rs, h => by simp [unlistAll, Rule.idsL, partsNeededAll, unlist_ids r h.1, unlistAll_ids rs h.2]
end

end Verif
