import Verif.Proofs.ConvertFuel
/-
`convert` on data that is not well nested.
-/
namespace Verif
open Spec CM Convert

theorem Ret.ne_timeout {α : Type} {m : CM α} {st : CSt} {P} (h : Ret m st P) : m st ≠ .timeout := by
  obtain ⟨r, st', e, _⟩ := h
  rw [e]; simp

/-- The loop walks over the items in front. -/
theorem loop_walk {σ : Type} {nm : Str} {B : Convert → σ → CM (Option (Range × σ))}
    {L : Nat} {Q : Tok → Prop} {I : Nat → σ → CSt → Prop}
    (hB : ∀ a rest off s st k, Item a → a.length ≤ L → (∀ t ∈ a, Q t) → I (a.length + k) s st →
      Ret (B ⟨a ++ rest, off⟩ s) st fun r st' => ∃ x, r = some x ∧ (x = none → I k s st') ∧
        ∀ y, x = some y → y.1 = ⟨off, a.length⟩ ∧ I k y.2 st')
    (hI : ∀ k s st r, I k s st → I k s { st with ignored := st.ignored ++ [r] }) :
    ∀ {body : List Tok}, Items body → body.length ≤ L → (∀ t ∈ body, Q t) →
    ∀ (n off : Nat) (s : σ) (st : CSt) (rest : List Tok) (k : Nat), body.length < n →
    I (body.length + k) s st →
    ∃ m s' st', loop nm B n ⟨body ++ rest, off⟩ s st = loop nm B m ⟨rest, off + body.length⟩ s' st' ∧
      n - body.length ≤ m ∧ I k s' st' := by
  intro body hb
  refine Items.rec_items hb ?_ ?_
  · intro _ _ n off s st rest k hn hi
    exact ⟨n, s, st, rfl, by omega, by simpa using hi⟩
  · intro a b ha hb ih hl hq n off s st rest k hn hi
    have hp := ha.pos
    obtain ⟨n, rfl⟩ : ∃ m, n = m + 1 := ⟨n - 1, by simp at hn; omega⟩
    simp only [List.length_append] at hl hn
    have he : endNode ⟨a ++ b ++ rest, off⟩ nm = none := by
      rw [List.append_assoc]; exact endNode_item ha _ _
    have hd : (a ++ b ++ rest).drop a.length = b ++ rest := by
      rw [List.append_assoc, List.drop_left]
    have hB' := hB a (b ++ rest) off s st (b.length + k) ha (by omega)
      (fun t ht => hq t (by simp [ht])) (by simpa [Nat.add_assoc] using hi)
    rw [← List.append_assoc] at hB'
    have ih' := fun s st => ih (by omega) (fun t ht => hq t (by simp [ht])) n (off + a.length) s st
      rest k (by omega)
    have hoff : off + a.length + b.length = off + (a ++ b).length := by
      simp [Nat.add_assoc]
    obtain ⟨x, st', e, x', hx, hnone, hsome⟩ := hB'
    subst hx
    simp only [loop, he]
    cases x' with
    | none =>
      obtain ⟨m, s', st'', e', hm, hi'⟩ := ih' s { st' with ignored := st'.ignored ++ [⟨off, a.length⟩] }
        (hI _ _ _ _ (hnone rfl))
      refine ⟨m, s', st'', ?_, by simp; omega, hi'⟩
      rw [bind_some e]
      simp only
      rw [List.append_assoc, ignore_item ha, bind_some (a := ⟨off, a.length⟩) (st' := st') rfl,
        bind_some (upd_eq (by simp)), bind_some (a := ()) rfl]
      simp only [List.drop_left]
      rw [← hoff, ← e']
    | some y =>
      obtain ⟨r, s'⟩ := y
      obtain ⟨h₁, h₂⟩ := hsome _ rfl
      simp only at h₁
      subst h₁
      obtain ⟨m, s', st'', e', hm, hi'⟩ := ih' s' st' h₂
      refine ⟨m, s', st'', ?_, by simp; omega, hi'⟩
      rw [bind_some e]
      simp only
      rw [bind_some (upd_eq (by simp))]
      simp only [hd]
      rw [← hoff, ← e']

/-- Nothing can be read in front of the end of a node or at the end of the data. -/
theorem nodeBody_none {L : Nat} (strings : List (Str × Str)) {c : Convert}
    (hc : c.data = [] ∨ ∃ r nm ts, c.data = ⟨r, .endNode nm⟩ :: ts)
    (s : Option Nat × Option Str × Option Rule) (st : CSt)
    (hs : s.1.getD 0 * 1000 < 2 ^ 64) :
    ∃ st', nodeBody strings (L + 1) c s st = .ok (some none, st') := by
  obtain ⟨d, off⟩ := c
  refine ⟨{ st with id := s.1.getD 0 * 1000 }, ?_⟩
  have h₁ : metaF64 ⟨d, off⟩ c!"id" = none := by
    rcases hc with h | ⟨r, nm, ts, h⟩ <;> simp only at h <;> rw [h] <;> rfl
  have h₂ : metaString ⟨d, off⟩ c!"name" = none := by
    rcases hc with h | ⟨r, nm, ts, h⟩ <;> simp only at h <;> rw [h] <;> rfl
  have h₃ : startNode ⟨d, off⟩ c!"rule" = none := by
    rcases hc with h | ⟨r, nm, ts, h⟩ <;> simp only at h <;> rw [h] <;> rfl
  have h₄ := (reader_rule strings L c!"rule").other ⟨d, off⟩ { st with id := s.1.getD 0 * 1000 } h₃
  have h₅ : setId (s.1.getD 0) st = .ok (some (), { st with id := s.1.getD 0 * 1000 }) := by
    simp [setId, hs]
  simp only [nodeBody, h₁, h₂, tryRead]
  rw [bind_some (a := none) (st' := st) rfl]
  simp only
  rw [bind_some (a := none) (st' := st) rfl]
  simp only
  have h₆ : (do setId (s.1.getD 0); readRule strings (L + 1) c!"rule" ⟨d, off⟩) st =
      .ok (none, { st with id := s.1.getD 0 * 1000 }) := by
    rw [bind_some h₅]; exact h₄
  rw [bind_some (a := none) (st' := { st with id := s.1.getD 0 * 1000 }) (by simp only [attempt, h₆])]
  rfl

theorem loop_end_timeout {σ : Type} {nm : Str} {B : Convert → σ → CM (Option (Range × σ))} {off : Nat}
    {s : σ} (hB : ∀ st, ∃ st', B ⟨[], off⟩ s st = .ok (some none, st')) :
    ∀ (n : Nat) (st : CSt), loop nm B n ⟨[], off⟩ s st = .timeout
  | 0, _ => rfl
  | n + 1, st => by
    obtain ⟨st', e⟩ := hB st
    simp only [loop, endNode]
    rw [bind_some e]
    simp only
    rw [bind_some (a := ⟨off, 0⟩) (st' := st') rfl, bind_some (upd_eq (c := ⟨[], off⟩) (by simp)),
      bind_some (a := ()) rfl]
    exact loop_end_timeout hB n _

/-- The state of the loop of `read_node` behind the items of a node. -/
theorem node_walk {body rest : List Tok} (strings : List (Str × Str)) (hi : Items body) {L n : Nat}
    (hl : body.length + 1 ≤ L) (hn : L ≤ n) (hL : L < 2 ^ 64) (hq : ∀ t ∈ body, IdFits L t) (off : Nat) (st : CSt) :
    ∃ m s' st', 0 < m ∧ (∀ id, s'.1 = some id → id * 1000 + L < 2 ^ 64) ∧
      loop c!"node" (nodeBody strings (n + 1)) (n + 1) ⟨body ++ rest, off⟩ (none, none, none) st =
      loop c!"node" (nodeBody strings (n + 1)) m ⟨rest, off + body.length⟩ s' st' := by
  obtain ⟨m, s', st', e, hm, h⟩ := loop_walk (nm := c!"node") (B := nodeBody strings (n + 1)) (L := L)
    (Q := IdFits L) (I := fun _ s _ => ∀ id, s.1 = some id → id * 1000 + L < 2 ^ 64)
    (nodeBody_ret strings hL hn) (fun _ _ _ _ h => h) hi (by omega) hq (n + 1) off (none, none, none) st
    rest 0 (by omega) (by simp)
  exact ⟨m, s', st', by omega, h, e⟩

/-- The first reader of strings stops in front of a node. -/
theorem stringsLoop_node {n k : Nat} {r : Range} {ts : List Tok} {off : Nat} {st : CSt} :
    stringsLoop n (k + 1) ⟨⟨r, .startNode c!"node"⟩ :: ts, off⟩ [] st =
      .ok (some (⟨⟨r, .startNode c!"node"⟩ :: ts, off⟩, []), st) := rfl

theorem fits_getD {L : Nat} {x : Option Nat}
    (h : ∀ id, x = some id → id * 1000 + L < 2 ^ 64) : x.getD 0 * 1000 < 2 ^ 64 := by
  cases x with
  | none => simp
  | some id => exact Nat.lt_of_le_of_lt (Nat.le_add_right _ _) (h id rfl)

theorem convertM_truncated {body : List Tok} (hi : Items body) {L n : Nat} (hl : body.length + 1 ≤ L)
    (hn : L ≤ n) (hL : L < 2 ^ 64) (hq : ∀ t ∈ body, IdFits L t) (r : Range) (st : CSt) :
    convertM (n + 1) (⟨r, .startNode c!"node"⟩ :: body) st = .timeout := by
  obtain ⟨m, s', st', _, hs, e⟩ := node_walk (rest := []) [] hi hl hn hL hq 1 st
  have e' : loop c!"node" (nodeBody [] (n + 1)) (n + 1) ⟨body, 1⟩ (none, none, none) st = .timeout := by
    rw [List.append_nil] at e
    rw [e]
    exact loop_end_timeout (fun st => nodeBody_none [] (.inl rfl) _ _ (fits_getD hs)) _ _
  have e₂ : readNode [] (n + 1) ⟨⟨r, .startNode c!"node"⟩ :: body, 0⟩ st = .timeout := by
    show (ofOption (some _) >>= _) st = _
    rw [bind_some (a := ⟨0, 1⟩) (st' := st) rfl, bind_some (upd_eq (c := ⟨_, 0⟩) (by simp))]
    show (loop _ _ _ _ _ >>= _) st = _
    simp only [Bind.bind, CM.bind, List.drop_one, List.tail_cons, Nat.zero_add, e']
  simp only [convertM, Convert.new]
  rw [bind_some stringsLoop_node]
  show (nodesLoop _ _ _ _ _ >>= _) st = _
  simp only [nodesLoop]
  simp only [Bind.bind, CM.bind, attempt, e₂]

theorem convertM_stray {body rest : List Tok} (hi : Items body) {L n : Nat} (hl : body.length + 1 ≤ L)
    (hn : L ≤ n) (hL : L < 2 ^ 64) (hq : ∀ t ∈ body, IdFits L t) (r r' : Range) {nm : Str} (hnm : nm ≠ c!"node")
    (st : CSt) :
    convertM (n + 1) (⟨r, .startNode c!"node"⟩ :: (body ++ ⟨r', .endNode nm⟩ :: rest)) st = .panic := by
  obtain ⟨m, s', st', hm, hs, e⟩ := node_walk (rest := ⟨r', .endNode nm⟩ :: rest) [] hi hl hn hL hq 1 st
  have e' : loop c!"node" (nodeBody [] (n + 1)) (n + 1) ⟨body ++ ⟨r', .endNode nm⟩ :: rest, 1⟩
      (none, none, none) st = .panic := by
    rw [e]
    obtain ⟨m, rfl⟩ : ∃ k, m = k + 1 := ⟨m - 1, by omega⟩
    obtain ⟨st'', e''⟩ := nodeBody_none (L := n) []
      (c := ⟨⟨r', .endNode nm⟩ :: rest, 1 + body.length⟩) (.inr ⟨_, _, _, rfl⟩) s' st' (fits_getD hs)
    simp only [loop, endNode, hnm, if_false]
    rw [bind_some e'']
    rfl
  have e₂ : readNode [] (n + 1) ⟨⟨r, .startNode c!"node"⟩ :: (body ++ ⟨r', .endNode nm⟩ :: rest), 0⟩ st =
      .panic := by
    show (ofOption (some _) >>= _) st = _
    rw [bind_some (a := ⟨0, 1⟩) (st' := st) rfl, bind_some (upd_eq (c := ⟨_, 0⟩) (by simp))]
    show (loop _ _ _ _ _ >>= _) st = _
    simp only [Bind.bind, CM.bind, List.drop_one, List.tail_cons, Nat.zero_add, e']
  simp only [convertM, Convert.new]
  rw [bind_some stringsLoop_node]
  show (nodesLoop _ _ _ _ _ >>= _) st = _
  simp only [nodesLoop]
  simp only [Bind.bind, CM.bind, attempt, e₂]

end Verif
