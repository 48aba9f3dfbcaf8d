import Verif.Proofs.PredictableCheck
/-
If there are marks at all, they are found.
-/
namespace Verif
open Spec

theorem covers_refl (a : Mark) : a.Covers a := ⟨fun _ h => h, fun _ h => h, id, id, id, Nat.le_refl _⟩

theorem covers_trans {a b c : Mark} (h : a.Covers b) (h' : b.Covers c) : a.Covers c :=
  ⟨fun x hx => h.first x (h'.first x hx), fun x hx => h.again x (h'.again x hx), fun x => h.empty (h'.empty x),
    fun x => h'.sure (h.sure x), fun x => h'.safe (h.safe x), Nat.le_trans h'.idle h.idle⟩

theorem covers_unsure {a b : Mark} (h : a.Covers b) (hb : b.sure = false) : a.sure = false := by
  cases h' : a.sure with
  | false => rfl
  | true => rw [h.sure h'] at hb; cases hb

theorem called_mono {a b : Mark} (h : a.Covers b) : a.called.Covers b.called :=
  ⟨h.first, h.again, h.empty, h.sure, h.safe, Nat.add_le_add_left h.idle 1⟩

theorem then_mono {a b a' b' : Mark} (h : a.Covers a') (h' : b.Covers b') : (a.then_ b).Covers (a'.then_ b') where
  first c := by
    rintro (h1 | ⟨h1, h2⟩)
    · exact .inl (h.first c h1)
    · exact .inr ⟨h.empty h1, h'.first c h2⟩
  again c := by
    rintro (h1 | ⟨h1, h2⟩)
    · exact .inl (h'.again c h1)
    · exact .inr ⟨h'.empty h1, h.again c h2⟩
  empty := by
    simp only [Mark.then_, Bool.and_eq_true]
    exact fun ⟨h1, h2⟩ => ⟨h.empty h1, h'.empty h2⟩
  sure := by
    simp only [Mark.then_, Bool.and_eq_true]
    exact fun ⟨h1, h2⟩ => ⟨h.sure h1, h'.safe h2⟩
  safe := by
    simp only [Mark.then_, Bool.and_eq_true]
    exact fun ⟨h1, h2⟩ => ⟨h.safe h1, h'.safe h2⟩
  idle := by
    have h1 := h.idle
    have h2 := h'.idle
    have h3 := h.empty
    simp only [Mark.then_]
    cases h4 : a'.empty with
    | false => simp only [Bool.false_eq_true, if_false]; omega
    | true => simp only [h3 h4, if_true]; omega

theorem else_mono {a b a' b' : Mark} (h : a.Covers a') (h' : b.Covers b') : (a.else_ b).Covers (a'.else_ b') where
  first c := by
    rintro (h1 | h1)
    · exact .inl (h.first c h1)
    · exact .inr (h'.first c h1)
  again c := by
    rintro (h1 | h1 | ⟨h1, h2, h3⟩)
    · exact .inl (h.again c h1)
    · exact .inr (.inl (h'.again c h1))
    · exact .inr (.inr ⟨h'.empty h1, covers_unsure h h2, h.first c h3⟩)
  empty := by
    simp only [Mark.else_, Bool.or_eq_true]
    exact fun h1 => h1.imp h.empty h'.empty
  sure := by
    simp only [Mark.else_, Bool.and_eq_true]
    exact fun ⟨h1, h2⟩ => ⟨h.sure h1, h'.sure h2⟩
  safe := by
    simp only [Mark.else_, Bool.or_eq_true]
    exact fun h1 => h1.imp h.safe h'.safe
  idle := Nat.add_le_add h.idle h'.idle

theorem left_mono {a a' : Mark} (h : a.Covers a') {c : Char} : a'.left c → a.left c := by
  rintro (h1 | ⟨h1, h2⟩)
  · exact .inl (h.again c h1)
  · exact .inr ⟨covers_unsure h h1, h.first c h2⟩

theorem loop_mono {a a' : Mark} (h : a.Covers a') (opt : Bool) : (a.loop opt).Covers (a'.loop opt) where
  first := h.first
  again _ := left_mono h
  empty := id
  sure := by
    simp only [Mark.loop, Bool.or_eq_true]
    exact fun h1 => h1.imp id h.sure
  safe := id
  idle := h.idle

theorem lines_mono {a a' : Mark} (h : a.Covers a') : a.lines.Covers a'.lines where
  first c := Or.imp id (h.first c)
  again _ := left_mono h
  empty := id
  sure := id
  safe := id
  idle := h.idle

theorem turns_mono {a b a' b' : Mark} (h : a.Covers a') (h' : b.Covers b') (opt trail : Bool) :
    (a.turns b opt trail).Covers (a'.turns b' opt trail) where
  first c := by
    rintro (h1 | ⟨h1, h2⟩)
    · exact .inl (h.first c h1)
    · exact .inr ⟨h.empty h1, h'.first c h2⟩
  again _ := Or.imp (left_mono h) (left_mono h')
  empty := by
    simp only [Mark.turns, Bool.or_eq_true]
    exact fun h1 => h1.imp id h.empty
  sure := by
    simp only [Mark.turns, Bool.and_eq_true, Bool.or_eq_true]
    exact fun ⟨h1, h2⟩ => ⟨h1, h2.imp id h.sure⟩
  safe := id
  idle := by
    have h1 := h.idle
    have h2 := h'.idle
    have h3 := h.empty
    simp only [Mark.turns]
    cases h4 : a'.empty with
    | false => simp only [Bool.false_eq_true, if_false]; omega
    | true => simp only [h3 h4, if_true]; omega

theorem noShared_mono {a b a' b' : Char → Prop} (h : NoShared a b) (ha : ∀ c, a' c → a c) (hb : ∀ c, b' c → b c) : NoShared a' b' :=
  fun c ⟨h1, h2⟩ => h c ⟨ha c h1, hb c h2⟩

section
variable {L : Lexer} {M M' : Nat → Mark} {N N' : Nat → Char → Prop}

mutual
/-- Larger marks of what is referred to give larger marks. -/
theorem markOf_mono (h : ∀ i, (M i).Covers (M' i)) : ∀ r : Rule, (markOf L M r).Covers (markOf L M' r)
  | .whitespace _ _ => covers_refl _
  | .tag _ _ _ _ _ => covers_refl _
  | .untilAny _ _ _ _ => covers_refl _
  | .untilAnyOrWs _ _ _ _ => covers_refl _
  | .text _ _ _ => covers_refl _
  | .number _ _ _ => covers_refl _
  | .node _ _ none _ => covers_refl _
  | .node _ _ (some i) _ => by
    unfold markOf
    exact called_mono (h i)
  | .select rs _ => by
    unfold markOf
    exact called_mono (markSelect_mono h rs)
  | .fastSelect _ _ _ _ => covers_refl _
  | .sequence rs _ => by
    unfold markOf
    exact called_mono (markSequence_mono h rs)
  | .separateBy r b opt trail _ => by
    unfold markOf
    exact called_mono (turns_mono (markOf_mono h r) (markOf_mono h b) opt trail)
  | .repeat_ r opt _ => by
    unfold markOf
    exact called_mono (loop_mono (markOf_mono h r) opt)
  | .lines r _ _ => by
    unfold markOf
    exact called_mono (lines_mono (markOf_mono h r))
  | .optional r _ => by
    unfold markOf
    exact called_mono (else_mono (markOf_mono h r) (covers_refl _))
  | .not _ _ => covers_refl _
theorem markSequence_mono (h : ∀ i, (M i).Covers (M' i)) : ∀ rs : List Rule, (markSequence L M rs).Covers (markSequence L M' rs)
  | [] => covers_refl _
  | r :: rs => by
    unfold markSequence
    exact then_mono (markOf_mono h r) (markSequence_mono h rs)
theorem markSelect_mono (h : ∀ i, (M i).Covers (M' i)) : ∀ rs : List Rule, (markSelect L M rs).Covers (markSelect L M' rs)
  | [] => covers_refl _
  | r :: rs => by
    unfold markSelect
    exact else_mono (markOf_mono h r) (markSelect_mono h rs)
end

theorem covers_nonempty {a b : Mark} (h : a.Covers b) (ha : a.empty = false) : b.empty = false := by
  cases hb : b.empty with
  | false => rfl
  | true => rw [h.empty hb] at ha; cases ha

theorem decidedSelect_mono (h : ∀ i, (M i).Covers (M' i)) : ∀ {rs : List Rule}, DecidedSelect L M rs → DecidedSelect L M' rs
  | [], _ => trivial
  | r :: rs, hd => ⟨noShared_mono hd.1 (markOf_mono h r).first (markSelect_mono h rs).first, decidedSelect_mono h hd.2⟩

theorem decidedSequence_mono (h : ∀ i, (M i).Covers (M' i)) : ∀ {rs : List Rule}, DecidedSequence L M rs → DecidedSequence L M' rs
  | [], _ => trivial
  | r :: rs, hd => ⟨noShared_mono hd.1 (markOf_mono h r).again (markSequence_mono h rs).first, decidedSequence_mono h hd.2⟩

/-- What is decided with larger marks is decided with smaller ones. -/
theorem decided_mono (h : ∀ i, (M i).Covers (M' i)) : ∀ {r : Rule}, Decided L M r → Decided L M' r
  | .whitespace _ _, _ => trivial
  | .tag _ _ _ _ _, _ => trivial
  | .untilAny _ _ _ _, _ => trivial
  | .untilAnyOrWs _ _ _ _, _ => trivial
  | .text _ _ _, _ => trivial
  | .number _ _ _, _ => trivial
  | .node _ _ _ _, _ => trivial
  | .select _ _, hd => decidedSelect_mono h hd
  | .fastSelect _ _ _ _, hd => hd
  | .sequence _ _, hd => decidedSequence_mono h hd
  | .separateBy r b opt trail _, ⟨h1, h2, h3, h4, h5⟩ => by
    have hr := markOf_mono (L := L) h r
    have hb := markOf_mono (L := L) h b
    refine ⟨?_, noShared_mono h2 hr.again hr.first, noShared_mono h3 hr.again hb.first, noShared_mono h4 hb.again hr.first,
      noShared_mono h5 hb.again hb.first⟩
    rw [Bool.and_eq_false_iff] at h1 ⊢
    exact h1.imp (covers_nonempty hr) (covers_nonempty hb)
  | .repeat_ r _ _, ⟨h1, h2⟩ => by
    have hr := markOf_mono (L := L) h r
    exact ⟨covers_nonempty hr h1, noShared_mono h2 hr.again hr.first⟩
  | .lines r _ _, ⟨h1, h2, h3⟩ => by
    have hr := markOf_mono (L := L) h r
    exact ⟨h1, covers_nonempty hr h2, noShared_mono h3 hr.again (lines_mono hr).first⟩
  | .optional _ _, _ => trivial
  | .not _ _, hd => hd

mutual
theorem moreOf_mono (h : ∀ i, (M i).Covers (M' i)) (hN : ∀ i c, N' i c → N i c) (c : Char) :
    ∀ r : Rule, moreOf L M' N' r c → moreOf L M N r c
  | .whitespace _ _ => by simp [moreOf]
  | .tag _ _ _ _ _ => by simp [moreOf]
  | .untilAny _ _ _ _ => by simp [moreOf]
  | .untilAnyOrWs _ _ _ _ => by simp [moreOf]
  | .text _ _ _ => by simp [moreOf]
  | .number _ _ _ => by simp [moreOf]
  | .node _ _ none _ => by simp [moreOf]
  | .node _ _ (some i) _ => by
    unfold moreOf
    exact hN i c
  | .select rs _ => by
    unfold moreOf
    exact moreSelect_mono h hN c rs
  | .fastSelect _ _ _ _ => by simp [moreOf]
  | .sequence rs _ => by
    unfold moreOf
    exact moreSequence_mono h hN c rs
  | .separateBy r b opt trail _ => by
    unfold moreOf
    exact Or.imp (moreOf_mono h hN c r) (Or.imp ((markOf_mono h b).first c) (Or.imp (And.imp id (moreOf_mono h hN c b))
      (And.imp id ((markOf_mono h r).first c))))
  | .repeat_ r _ _ => by
    unfold moreOf
    exact Or.imp (moreOf_mono h hN c r) ((markOf_mono h r).first c)
  | .lines _ _ _ => by simp [moreOf]
  | .optional r _ => by
    unfold moreOf
    exact Or.imp (moreOf_mono h hN c r) ((markOf_mono h r).first c)
  | .not _ _ => by simp [moreOf]
theorem moreSequence_mono (h : ∀ i, (M i).Covers (M' i)) (hN : ∀ i c, N' i c → N i c) (c : Char) :
    ∀ rs : List Rule, moreSequence L M' N' rs c → moreSequence L M N rs c
  | [] => by simp [moreSequence]
  | r :: rs => by
    unfold moreSequence
    exact Or.imp (moreSequence_mono h hN c rs) (And.imp (markSequence_mono h rs).empty (moreOf_mono h hN c r))
theorem moreSelect_mono (h : ∀ i, (M i).Covers (M' i)) (hN : ∀ i c, N' i c → N i c) (c : Char) :
    ∀ rs : List Rule, moreSelect L M' N' rs c → moreSelect L M N rs c
  | [] => by simp [moreSelect]
  | r :: rs => by
    unfold moreSelect
    exact Or.imp (moreOf_mono h hN c r) (Or.imp (moreSelect_mono h hN c rs)
      (And.imp (markSelect_mono h rs).empty ((markOf_mono h r).first c)))
end

theorem oneWaySelect_mono (h : ∀ i, (M i).Covers (M' i)) : ∀ {rs : List Rule}, OneWaySelect L M rs → OneWaySelect L M' rs
  | [], _ => trivial
  | r :: _, hd => ⟨fun hne => covers_nonempty (markOf_mono h r) (hd.1 hne), oneWaySelect_mono h hd.2⟩

theorem oneWaySequence_mono (h : ∀ i, (M i).Covers (M' i)) (hN : ∀ i c, N' i c → N i c) :
    ∀ {rs : List Rule}, OneWaySequence L M N rs → OneWaySequence L M' N' rs
  | [], _ => trivial
  | r :: rs, hd => ⟨noShared_mono hd.1 (fun c => moreOf_mono h hN c r) (markSequence_mono h rs).first, oneWaySequence_mono h hN hd.2⟩

theorem oneWay_mono (h : ∀ i, (M i).Covers (M' i)) (hN : ∀ i c, N' i c → N i c) : ∀ {r : Rule}, OneWay L M N r → OneWay L M' N' r
  | .whitespace _ _, _ => trivial
  | .tag _ _ _ _ _, _ => trivial
  | .untilAny _ _ _ _, _ => trivial
  | .untilAnyOrWs _ _ _ _, _ => trivial
  | .text _ _ _, _ => trivial
  | .number _ _ _, _ => trivial
  | .node _ _ _ _, _ => trivial
  | .select _ _, hd => oneWaySelect_mono h hd
  | .fastSelect _ _ _ _, _ => trivial
  | .sequence _ _, hd => oneWaySequence_mono h hN hd
  | .separateBy r b _ _ _, ⟨h1, h2, h3, h4⟩ =>
    ⟨covers_nonempty (markOf_mono h r) h1, covers_nonempty (markOf_mono h b) h2,
      noShared_mono h3 (fun c => moreOf_mono h hN c r) (markOf_mono h b).first,
      noShared_mono h4 (fun c => moreOf_mono h hN c b) (markOf_mono h r).first⟩
  | .repeat_ r _ _, hd => noShared_mono hd (fun c => moreOf_mono h hN c r) (markOf_mono h r).first
  | .lines _ _ _, hd => hd
  | .optional r _, hd => covers_nonempty (markOf_mono h r) hd
  | .not _ _, _ => trivial

end

end Verif
