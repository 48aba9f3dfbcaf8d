import Mathlib.Computability.Halting
import Mathlib.Data.Finite.Prod
import Mathlib.Data.Nat.Bits
import Mathlib.Computability.Reduce
import Mathlib.Computability.TuringMachine.ToPartrec
import Verif.Proofs.TuringWord
/-
Whether a word is reached by rewriting cannot be decided.
-/
namespace Verif
open Spec Turing

/-- There is one partial recursive function for which it cannot be decided whether it is defined. -/
theorem universal_halting : ∃ f : ℕ →. ℕ, Nat.Partrec f ∧ ¬ ComputablePred fun n => (f n).Dom := by
  let f : ℕ →. ℕ := fun n => Nat.Partrec.Code.eval (Denumerable.ofNat Nat.Partrec.Code n) 0
  refine ⟨f, ?_, ?_⟩
  · exact Partrec.nat_iff.1 (Nat.Partrec.Code.eval_part.comp (Computable.ofNat _) (Computable.const 0))
  · intro h
    refine ComputablePred.halting_problem 0 (ComputablePred.computable_of_manyOneReducible ?_ h)
    exact ⟨Encodable.encode, Computable.encode, fun c => by simp only [f]; rw [Denumerable.ofNat_encode]⟩

theorem trPosNum_bits (p : PosNum) : PartrecToTM2.trPosNum p =
    (p : ℕ).bits.map fun b => if b then PartrecToTM2.Γ'.bit1 else PartrecToTM2.Γ'.bit0 := by
  induction p with
  | one => simp [PartrecToTM2.trPosNum]
  | bit1 p ih => rw [PartrecToTM2.trPosNum, ih, PosNum.cast_bit1, ← two_mul, Nat.bit1_bits]; simp
  | bit0 p ih =>
    rw [PartrecToTM2.trPosNum, ih, PosNum.cast_bit0, ← two_mul, Nat.bit0_bits _ (by have := p.cast_pos (α := ℕ); omega)]; simp

theorem trNat_bits (n : ℕ) : PartrecToTM2.trNat n = n.bits.map fun b => if b then PartrecToTM2.Γ'.bit1 else PartrecToTM2.Γ'.bit0 := by
  rw [PartrecToTM2.trNat]
  conv => rhs; rw [← Num.to_of_nat n]
  cases (n : Num) with
  | zero => simp [PartrecToTM2.trNum]
  | pos p => rw [PartrecToTM2.trNum, trPosNum_bits]; simp

/-- A machine with finitely many states for which this cannot be decided. -/
theorem machine_halting : ∃ (Γ Λ : Type) (_ : Inhabited Γ) (_ : Inhabited Λ) (_ : Finite Γ) (M : TM0.Machine Γ Λ) (S : Finset Λ)
    (c i j : Γ), TM0.Supports M (S : Set Λ) ∧
      ¬ ComputablePred fun n : ℕ => (StateTransition.eval (TM0.step M) (TM0.init (c :: n.bits.reverse.map fun b => if b then i else j))).Dom := by
  obtain ⟨f, hf, hn⟩ := universal_halting
  obtain ⟨c, hc⟩ := ToPartrec.Code.exists_code (Nat.Partrec'.part_iff₁.2 (Partrec.nat_iff.2 hf))
  let _ : Inhabited PartrecToTM2.Λ' := ⟨PartrecToTM2.trNormal c PartrecToTM2.Cont'.halt⟩
  have hs2 := PartrecToTM2.tr_supports c PartrecToTM2.Cont'.halt
  have hs1 := TM2to1.tr_supports PartrecToTM2.tr hs2
  have hs0 := TM1to0.tr_supports (TM2to1.tr PartrecToTM2.tr) hs1
  have hdom : ∀ n : ℕ, (TM0.eval (TM1to0.tr (TM2to1.tr PartrecToTM2.tr)) (TM2to1.trInit PartrecToTM2.K'.main (PartrecToTM2.trList [n]))).Dom ↔ (f n).Dom := by
    intro n
    have h1 := PartrecToTM2.tr_eval c [n]
    have h2 : c.eval [n] = pure <$> f n := hc ⟨[n], rfl⟩
    have hi : TM2.init (Γ := fun _ => PartrecToTM2.Γ') (σ := Option PartrecToTM2.Γ') PartrecToTM2.K'.main (PartrecToTM2.trList [n]) = PartrecToTM2.init c [n] := by
      simp only [TM2.init, PartrecToTM2.init]
      congr 1
      funext k
      cases k <;> simp [Function.update, PartrecToTM2.K'.elim]
    have h3 : (TM0.eval (TM1to0.tr (TM2to1.tr PartrecToTM2.tr)) (TM2to1.trInit PartrecToTM2.K'.main (PartrecToTM2.trList [n]))) = _ := TM1to0.tr_eval _ _
    have h4 := TM2to1.tr_eval_dom PartrecToTM2.tr PartrecToTM2.K'.main (PartrecToTM2.trList [n])
    rw [h3]
    refine h4.trans ?_
    show (Part.map _ (StateTransition.eval (TM2.step PartrecToTM2.tr) (TM2.init PartrecToTM2.K'.main (PartrecToTM2.trList [n])))).Dom ↔ _
    rw [hi]
    rw [h1, h2]
    exact Iff.rfl
  have hfin : Finite (TM2to1.Γ' PartrecToTM2.K' fun _ => PartrecToTM2.Γ') := by
    have : Finite PartrecToTM2.K' := by
      refine Set.finite_univ_iff.1 ((Set.toFinite {PartrecToTM2.K'.main, .rev, .aux, .stack}).subset ?_)
      rintro (_ | _ | _ | _) - <;> simp
    show Finite (Bool × ∀ _ : PartrecToTM2.K', Option PartrecToTM2.Γ')
    infer_instance
  let g : PartrecToTM2.Γ' → TM2to1.Γ' PartrecToTM2.K' fun _ => PartrecToTM2.Γ' :=
    fun a => (false, Function.update (fun _ => none) PartrecToTM2.K'.main (some a))
  refine ⟨_, _, inferInstance, inferInstance, hfin, TM1to0.tr (TM2to1.tr PartrecToTM2.tr), _, (true, (g .cons).2), g .bit1, g .bit0, hs0, ?_⟩
  intro h
  refine hn (h.of_eq fun n => ?_)
  rw [← hdom n]
  have : TM2to1.trInit PartrecToTM2.K'.main (PartrecToTM2.trList [n]) =
      ((true, (g .cons).2) :: n.bits.reverse.map fun b => if b then g .bit1 else g .bit0) := by
    have hl : (PartrecToTM2.trList [n]).reverse =
        .cons :: n.bits.reverse.map fun b => if b then PartrecToTM2.Γ'.bit1 else PartrecToTM2.Γ'.bit0 := by
      simp [PartrecToTM2.trList, trNat_bits]
    have ht : ∀ (l : List PartrecToTM2.Γ') (a : PartrecToTM2.Γ') (r : List PartrecToTM2.Γ'), l.reverse = a :: r →
        TM2to1.trInit (K := PartrecToTM2.K') (Γ := fun _ => PartrecToTM2.Γ') PartrecToTM2.K'.main l = (true, (g a).2) :: r.map g := by
      intro l a r h
      unfold TM2to1.trInit
      rw [h]
      rfl
    rw [ht _ _ _ hl, List.map_map]
    congr 1
    refine List.map_congr_left fun b _ => ?_
    cases b <;> rfl
  rw [this]
  rfl

/-- Rewriting reaches a word, and no program says from which words. -/
theorem words_undecidable : ∃ (N : Nat) (R : List (List Nat × List Nat)) (F : List (List Nat)) (pre post : List Nat) (i j : Nat),
    (∀ q ∈ R, ∀ a ∈ q.2, a < N) ∧ (∀ a ∈ pre, a < N) ∧ (∀ a ∈ post, a < N) ∧ i < N ∧ j < N ∧
      ¬ ComputablePred fun n : ℕ => ReachesWord R F (pre ++ (n.bits.reverse.map fun b => if b then i else j) ++ post) := by
  classical
  obtain ⟨Γ, Λ, iΓ, iΛ, hΓ, M, S, c, i, j, hS, hn⟩ := machine_halting
  have := Fintype.ofFinite Γ
  let e := Fintype.equivFin Γ
  let X : List Γ := Finset.univ.toList
  have hX : ∀ a, a ∈ X := fun a => by simp [X]
  let C : Letters (Γ := Γ) S.toList := {
    sym := fun a => 2 * (e a).val + 2
    state := fun q => 2 * S.toList.idxOf q + 3
    sym_inj := fun a b h => e.injective (Fin.ext (by omega))
    state_inj := fun p hp q hq h => (List.idxOf_inj hp).1 (by omega)
    sym_even := fun a => by omega
    sym_big := fun a => by omega
    state_odd := fun q => by omega
    state_big := fun q => by omega }
  let w : ℕ → List Nat := fun n => [0, C.state default, C.sym c] ++ (n.bits.reverse.map fun b => if b then C.sym i else C.sym j) ++ [1]
  obtain ⟨N, hN⟩ : ∃ N : Nat, ∀ a ∈ (machinePairs C M X).flatMap (·.2) ++ [0, C.state default, C.sym c, 1, C.sym i, C.sym j], a < N := by
    generalize (machinePairs C M X).flatMap (·.2) ++ [0, C.state default, C.sym c, 1, C.sym i, C.sym j] = l
    induction l with
    | nil => exact ⟨0, by simp⟩
    | cons a l ih =>
      obtain ⟨N, hN⟩ := ih
      exact ⟨N + a + 1, fun b hb => by
        rcases List.mem_cons.1 hb with rfl | hb
        · omega
        · have := hN b hb; omega⟩
  refine ⟨N, machinePairs C M X, machineEnds C M X, [0, C.state default, C.sym c], [1], C.sym i, C.sym j, ?_, ?_, ?_, ?_, ?_, ?_⟩
  · exact fun q hq a ha => hN a (List.mem_append_left _ (List.mem_flatMap.2 ⟨q, hq, ha⟩))
  · exact fun a ha => hN a (List.mem_append_right _ (by simp at ha ⊢; tauto))
  · exact fun a ha => hN a (List.mem_append_right _ (by simp at ha ⊢; tauto))
  · exact hN _ (List.mem_append_right _ (by simp))
  · exact hN _ (List.mem_append_right _ (by simp))
  · intro h
    refine hn (h.of_eq fun n => ?_)
    refine (halts_reaches (C := C) (M := M) (X := X) hX ?_ ?_).symm
    · intro q hq a q' s hs
      exact Finset.mem_toList.2 (Finset.mem_coe.1 (hS.2 hs (Finset.mem_coe.2 (Finset.mem_toList.1 hq))))
    · refine ⟨[], c :: n.bits.reverse.map fun b => if b then i else j, ?_, rfl, Finset.mem_toList.2 (Finset.mem_coe.1 hS.1)⟩
      simp only [TM0.init, List.map_cons, List.map_nil, List.cons_append, List.nil_append, List.map_map, List.cons.injEq, true_and]
      congr 1
      refine List.map_congr_left fun b _ => ?_
      cases b <;> rfl

theorem bits_primrec : Primrec Nat.bits := by
  let g : Unit → List (List Bool) → Option (List Bool) := fun _ l =>
    if l.length = 0 then some [] else (l[l.length / 2]?).map fun t => (decide (l.length % 2 = 1)) :: t
  have hg : Primrec₂ g := by
    refine Primrec.ite (PrimrecRel.comp Primrec.eq (Primrec.list_length.comp Primrec.snd) (Primrec.const 0)) (Primrec.const _) ?_
    refine Primrec.option_map (Primrec.list_getElem?.comp Primrec.snd (Primrec.nat_div.comp (Primrec.list_length.comp Primrec.snd) (Primrec.const 2))) ?_
    refine Primrec.list_cons.comp (PrimrecPred.decide ?_) Primrec.snd
    exact PrimrecRel.comp Primrec.eq (Primrec.nat_mod.comp (Primrec.list_length.comp (Primrec.snd.comp Primrec.fst)) (Primrec.const 2)) (Primrec.const 1)
  have := Primrec.nat_strong_rec (fun (_ : Unit) n => Nat.bits n) hg fun _ n => by
    simp only [g, List.length_map, List.length_range]
    split
    · rename_i h; subst h; simp
    · rename_i h
      have : n / 2 < n := by omega
      rw [List.getElem?_map, List.getElem?_range this]
      simp only [Option.map_some, Option.some.injEq]
      rcases Nat.mod_two_eq_zero_or_one n with hm | hm
      · conv => rhs; rw [show n = 2 * (n / 2) by omega, Nat.bit0_bits _ (by omega)]
        simp [hm]
      · conv => rhs; rw [show n = 2 * (n / 2) + 1 by omega, Nat.bit1_bits]
        simp [hm]
  exact this.comp (Primrec.const ()) Primrec.id

/-- Numbers in binary in a list. -/
theorem binary_primrec {α : Type} [Primcodable α] (pre post a b : List α) :
    Primrec fun n : ℕ => pre ++ (Nat.bits n).flatMap (fun c => if c then a else b) ++ post := by
  refine Primrec.list_append.comp (Primrec.list_append.comp (Primrec.const pre) ?_) (Primrec.const post)
  refine Primrec.list_flatMap bits_primrec ?_
  exact (Primrec.dom_finite fun c : Bool => if c then a else b).comp Primrec.snd
end Verif
