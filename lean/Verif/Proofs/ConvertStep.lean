import Verif.Proofs.ConvertBad
/-
Single steps of the readers.
-/
namespace Verif
open Spec CM Convert

section
variable {α β σ : Type}

theorem bind_panic {m : CM α} {f : α → CM β} {st : CSt} (h : m st = .panic) :
    (m >>= f) st = .panic := by
  simp [Bind.bind, CM.bind, h]

theorem tryRead_some {m : CM (Range × α)} {put : α → σ} {o : CM (Option (Range × σ))} {st st' : CSt}
    {r : Range} {v : α} (h : m st = .ok (some (r, v), st')) :
    tryRead m put o st = .ok (some (some (r, put v)), st') := by
  rw [tryRead, bind_some (a := some (r, v)) (st' := st') (by simp [attempt, h])]
  rfl

theorem tryRead_none {m : CM (Range × α)} {put : α → σ} {o : CM (Option (Range × σ))} {st st' : CSt}
    (h : m st = .ok (none, st')) : tryRead m put o st = o st' := by
  rw [tryRead, bind_some (a := none) (st' := st') (by simp [attempt, h])]

theorem tryRead_panic {m : CM (Range × α)} {put : α → σ} {o : CM (Option (Range × σ))} {st : CSt}
    (h : m st = .panic) : tryRead m put o st = .panic := by
  rw [tryRead, bind_panic (by simp [attempt, h])]

theorem ofOption_some {x : Option α} {a : α} (h : x = some a) (st : CSt) :
    ofOption x st = .ok (some a, st) := by simp [ofOption, h]

theorem ofOption_none {x : Option α} (h : x = none) (st : CSt) :
    ofOption x st = .ok (none, st) := by simp [ofOption, h]

theorem loop_step {nm : Str} {B : Convert → σ → CM (Option (Range × σ))} {n : Nat} {a rest : List Tok}
    {off : Nat} {s s' : σ} {st st' : CSt} (ha : Item a)
    (hB : B ⟨a ++ rest, off⟩ s st = .ok (some (some (⟨off, a.length⟩, s')), st')) :
    loop nm B (n + 1) ⟨a ++ rest, off⟩ s st = loop nm B n ⟨rest, off + a.length⟩ s' st' := by
  simp only [loop, endNode_item ha]
  rw [bind_some hB]
  simp only
  rw [bind_some (upd_eq (c := ⟨a ++ rest, off⟩) (by simp))]
  simp only [List.drop_left]

theorem loop_panic {nm : Str} {B : Convert → σ → CM (Option (Range × σ))} {n : Nat} {c : Convert}
    {s : σ} {st : CSt} (he : c.endNode nm = none) (hB : B c s st = .panic) :
    loop nm B (n + 1) c s st = .panic := by
  simp only [loop, he]
  exact bind_panic hB

theorem loop_done {nm : Str} {B : Convert → σ → CM (Option (Range × σ))} {n : Nat} {r : Range}
    {rest : List Tok} {off : Nat} {s : σ} {st : CSt} :
    loop nm B (n + 1) ⟨⟨r, .endNode nm⟩ :: rest, off⟩ s st = .ok (some (⟨rest, off + 1⟩, s), st) := by
  simp only [loop, endNode, if_true]
  rw [bind_some (upd_eq (c := ⟨_, off⟩) (by simp))]
  rfl

end

/-- `read_node` on a node, up to its loop. -/
theorem readNode_eq {strings : List (Str × Str)} {n : Nat} {r : Range} {ts : List Tok} {off : Nat}
    {st : CSt} : readNode strings n ⟨⟨r, .startNode c!"node"⟩ :: ts, off⟩ st =
    (do
      let (c, _, name, rule) ← loop c!"node" (nodeBody strings n) n ⟨ts, off + 1⟩ (none, none, none)
      let name ← ofOption name
      let rule ← ofOption rule
      return (← c.sub ⟨⟨r, .startNode c!"node"⟩ :: ts, off⟩, name, rule) : CM _) st := by
  show (ofOption (some _) >>= _) st = _
  rw [bind_some (a := ⟨off, 1⟩) (st' := st) rfl, bind_some (upd_eq (c := ⟨_, off⟩) (by simp))]
  rfl

end Verif
