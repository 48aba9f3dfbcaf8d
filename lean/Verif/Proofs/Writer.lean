import Verif.Spec.Writer
import Verif.Proofs.ErrorHandler
/-
Writing to a writer writes the text of the functional model.
-/
namespace Verif
open Spec

theorem Wrote.andThen_assoc {σ ε : Type} (x : Wrote σ ε) (f g : σ → Wrote σ ε) :
    (x.andThen f).andThen g = x.andThen fun s => (f s).andThen g := by cases x <;> rfl

theorem Wrote.andThen_ok {σ ε : Type} (x : Wrote σ ε) : (x.andThen fun s => .ok s) = x := by cases x <;> rfl

theorem putAll_append {σ ε : Type} (W : Writer σ ε) (a b : List Str) (s : σ) :
    putAll W (a ++ b) s = (putAll W a s).andThen (putAll W b) := by
  induction a generalizing s with
  | nil => rfl
  | cons p a ih =>
    simp only [List.cons_append, putAll]
    cases W.put s p with
    | mk r s' =>
      cases r with
      | ok u => exact ih s'
      | error e => rfl

theorem Spec.Delivers.done : Delivers (fun _ _ _ s => .ok s) [] := ⟨[], rfl, fun _ _ _ _ => rfl⟩

theorem Spec.Delivers.boom : Delivers (fun _ _ _ s => .panic s) [] true := ⟨[], rfl, fun _ _ _ _ => rfl⟩

theorem Spec.Delivers.one (C : Cut) (line : Nat) (t : Str) : Delivers (fun _ _ W s => writeTo W C line t s) t :=
  ⟨C.cut line t, C.whole line t, fun _ _ _ _ => by simp [writeTo, Wrote.andThen_ok]⟩

theorem Spec.Delivers.seq {f g : Writing} {t u : Str} {p : Bool} (hf : Delivers f t) (hg : Delivers g u p) :
    Delivers (fun σ ε W s => (f σ ε W s).andThen fun s => g σ ε W s) (t ++ u) p := by
  obtain ⟨a, ha, hf⟩ := hf
  obtain ⟨b, hb, hg⟩ := hg
  refine ⟨a ++ b, by simp [ha, hb], fun σ ε W s => ?_⟩
  simp [hf, hg, Wrote.andThen_ok, putAll_append, Wrote.andThen_assoc]

theorem Spec.Delivers.cut_off {f g : Writing} {t : Str} (hf : Delivers f t true) :
    Delivers (fun σ ε W s => (f σ ε W s).andThen fun s => g σ ε W s) t true := by
  obtain ⟨a, ha, hf⟩ := hf
  refine ⟨a, ha, fun σ ε W s => ?_⟩
  simp only [hf, Wrote.andThen_assoc, if_true]
  rfl

theorem Spec.Delivers.eq {f g : Writing} {t u : Str} {p : Bool} (h : Delivers f t p) (e : ∀ σ ε W s, f σ ε W s = g σ ε W s)
    (h' : t = u) : Delivers g u p := by
  have : f = g := by funext σ ε W s; exact e σ ε W s
  exact this ▸ h' ▸ h

theorem Spec.Delivers.forEach {α : Type} {f : ∀ (σ ε : Type), Writer σ ε → α → σ → Wrote σ ε} {t : α → Str}
    (h : ∀ a, Delivers (fun σ ε W s => f σ ε W a s) (t a)) (as : List α) :
    Delivers (fun σ ε W s => forTo (f σ ε W) as s) (as.flatMap t) := by
  induction as with
  | nil => exact Delivers.done
  | cons a as ih => exact ((h a).seq ih).eq (fun _ _ _ _ => rfl) (by simp)

theorem writes_char (C : Cut) (c : Char) : Delivers (fun _ _ W s => charTo W C c s) (escapeChar c) := by
  unfold charTo escapeChar
  split
  · exact Delivers.one ..
  split
  · exact Delivers.one ..
  split
  · exact Delivers.one ..
  split
  · exact Delivers.one ..
  split
  · exact Delivers.one ..
  exact Delivers.one ..

theorem writes_string (C : Cut) (v : Str) : Delivers (fun _ _ W s => stringTo W C v s) (writeString v) :=
  ((Delivers.one C 74 ['"']).seq ((Delivers.forEach (writes_char C) v).seq (Delivers.one C 90 ['"']))).eq
    (fun _ _ _ _ => rfl) (by simp [writeString])

theorem writes_item (C : Cut) (fmt : F64 → Str) (d : MetaData) :
    Delivers (fun _ _ W s => itemTo W C fmt d s) (writeItem fmt d) := by
  cases d with
  | startNode name => exact (writes_string C name).seq (Delivers.one ..)
  | endNode name => exact Delivers.one ..
  | bool name val => exact (writes_string C name).seq (Delivers.one ..)
  | f64 name val => exact (writes_string C name).seq (Delivers.one ..)
  | string name val => exact (writes_string C name).seq ((Delivers.one ..).seq (writes_string C val))

theorem flatMap_range_replicate (n : Nat) : (List.range n).flatMap (fun _ => [' ']) = List.replicate n ' ' := by
  induction n with
  | zero => rfl
  | succ n ih => rw [List.range_succ, List.flatMap_append, ih]; simp [List.replicate_succ']

/-- What the loop does when the model returns a text, and when it panics. -/
theorem writes_json_loop (C : Cut) (fmt : F64 → Str) (ds : List MetaData) :
    ∀ (started first : Bool) (indent : Nat),
      (∀ t, writeLoop fmt ds started first indent = .ok t →
        Delivers (fun _ _ W s => jsonLoopTo W C fmt ds started first indent s) t) ∧
      (writeLoop fmt ds started first indent = .panic →
        ∃ t, Delivers (fun _ _ W s => jsonLoopTo W C fmt ds started first indent s) t true) ∧
      writeLoop fmt ds started first indent ≠ .timeout := by
  induction ds with
  | nil =>
    intro started first indent
    refine ⟨fun t e => ?_, fun e => by simp [writeLoop] at e, by simp [writeLoop]⟩
    simp only [writeLoop, Comp.ok.injEq] at e
    exact (Delivers.one C 66 ['\n']).eq (fun _ _ _ _ => rfl) e
  | cons d ds ih =>
    intro started first indent
    by_cases hu : (d.isEnd && indent == 0) = true
    · have hu' := hu
      simp only [Bool.and_eq_true, beq_iff_eq] at hu'
      obtain ⟨he, rfl⟩ := hu'
      have e : writeLoop fmt (d :: ds) started first 0 = .panic := by simp [writeLoop, he]
      refine ⟨fun t h => (by rw [e] at h; cases h), fun _ => ⟨[], ?_⟩, by rw [e]; simp⟩
      exact Delivers.boom.eq (fun _ _ _ s => by simp [jsonLoopTo, he, subTo]) rfl
    · have hle : (if d.isEnd then 1 else 0) ≤ indent := by
        cases hd : d.isEnd with
        | false => simp
        | true => simp [hd] at hu; simp; omega
      let ind := indent - (if d.isEnd then 1 else 0)
      let sep : Str := if !first && !d.isEnd then [',', '\n'] else if started then ['\n'] else []
      have hind : (if d.isEnd then indent - 1 else indent) = ind := by
        cases hd : d.isEnd <;> simp [ind, hd]
      have head : Delivers (fun _ _ W s =>
          (if !first && !d.isEnd then writeTo W C 33 [',', '\n'] s
            else if started then writeTo W C 35 ['\n'] s else .ok s).andThen fun s =>
          (forTo (fun _ => writeTo W C 39 [' ']) (List.range ind) s).andThen fun s => itemTo W C fmt d s)
          (sep ++ List.replicate ind ' ' ++ writeItem fmt d) := by
        have h1 : Delivers (fun _ _ W s => if !first && !d.isEnd then writeTo W C 33 [',', '\n'] s
            else if started then writeTo W C 35 ['\n'] s else .ok s) sep := by
          by_cases c1 : (!first && !d.isEnd) = true
          · simp only [sep, c1, if_true]; exact Delivers.one ..
          · by_cases c2 : started = true
            · simp only [sep, if_neg c1, c2, if_true]; exact Delivers.one ..
            · simp only [sep, if_neg c1, if_neg c2]; exact Delivers.done
        have h2 := Delivers.forEach (fun _ : Nat => Delivers.one C 39 [' ']) (List.range ind)
        exact (h1.seq (h2.seq (writes_item C fmt d))).eq (fun _ _ _ _ => rfl)
          (by rw [flatMap_range_replicate, List.append_assoc])
      have unfold : ∀ (σ ε : Type) (W : Writer σ ε) (s : σ),
          jsonLoopTo W C fmt (d :: ds) started first indent s =
          (((if !first && !d.isEnd then writeTo W C 33 [',', '\n'] s
            else if started then writeTo W C 35 ['\n'] s else .ok s).andThen fun s =>
          (forTo (fun _ => writeTo W C 39 [' ']) (List.range ind) s).andThen fun s => itemTo W C fmt d s)).andThen
          fun s => if d.isStart then
            if ind + 1 < 2 ^ 32 then jsonLoopTo W C fmt ds true true (ind + 1) s else .panic s
          else jsonLoopTo W C fmt ds true false ind s := by
        intro σ ε W s
        simp only [jsonLoopTo, subTo, if_pos hle, Wrote.andThen_assoc]
        rfl
      cases hs : d.isStart with
      | true =>
        by_cases hb : ind + 1 < 2 ^ 32
        · obtain ⟨i1, i2, i3⟩ := ih true true (ind + 1)
          have e : writeLoop fmt (d :: ds) started first indent =
              match writeLoop fmt ds true true (ind + 1) with
              | .ok rest => .ok (sep ++ List.replicate ind ' ' ++ writeItem fmt d ++ rest)
              | .panic => .panic
              | .timeout => .timeout := by
            simp only [writeLoop, if_neg hu, hind, hs, hb, decide_true, Bool.not_true, Bool.and_false,
              Bool.false_eq_true, if_false, if_true]
            rfl
          have hU : ∀ (σ ε : Type) (W : Writer σ ε) (s : σ), _ := fun σ ε W s => (unfold σ ε W s)
          simp only [hs, if_true, if_pos hb] at hU
          refine ⟨fun t h => ?_, fun h => ?_, fun h => ?_⟩
          · rw [e] at h
            cases hw : writeLoop fmt ds true true (ind + 1) with
            | ok rest =>
              rw [hw] at h
              cases h
              exact (head.seq (i1 rest hw)).eq (fun _ _ _ _ => (hU _ _ _ _).symm) rfl
            | panic => rw [hw] at h; cases h
            | timeout => exact absurd hw i3
          · rw [e] at h
            cases hw : writeLoop fmt ds true true (ind + 1) with
            | ok rest => rw [hw] at h; cases h
            | panic =>
              obtain ⟨t, ht⟩ := i2 hw
              exact ⟨_, (head.seq ht).eq (fun _ _ _ _ => (hU _ _ _ _).symm) rfl⟩
            | timeout => exact absurd hw i3
          · rw [e] at h
            cases hw : writeLoop fmt ds true true (ind + 1) with
            | ok rest => rw [hw] at h; cases h
            | panic => rw [hw] at h; cases h
            | timeout => exact absurd hw i3
        · have e : writeLoop fmt (d :: ds) started first indent = .panic := by
            simp only [writeLoop, if_neg hu, hind, hs, hb, decide_false, Bool.not_false, Bool.and_true,
              if_true]
          refine ⟨fun t h => (by rw [e] at h; cases h), fun _ => ?_, by rw [e]; simp⟩
          refine ⟨_, (head.seq Delivers.boom).eq (fun σ ε W s => ?_) rfl⟩
          rw [unfold σ ε W s]
          simp only [hs, if_true, if_neg hb]
      | false =>
        obtain ⟨i1, i2, i3⟩ := ih true false ind
        have e : writeLoop fmt (d :: ds) started first indent =
            match writeLoop fmt ds true false ind with
            | .ok rest => .ok (sep ++ List.replicate ind ' ' ++ writeItem fmt d ++ rest)
            | .panic => .panic
            | .timeout => .timeout := by
          simp only [writeLoop, if_neg hu, hind, hs, Bool.false_and,
            Bool.false_eq_true, if_false]
          rfl
        have hU : ∀ (σ ε : Type) (W : Writer σ ε) (s : σ), _ := fun σ ε W s => (unfold σ ε W s)
        simp only [hs, Bool.false_eq_true, if_false] at hU
        refine ⟨fun t h => ?_, fun h => ?_, fun h => ?_⟩
        · rw [e] at h
          cases hw : writeLoop fmt ds true false ind with
          | ok rest =>
            rw [hw] at h
            cases h
            exact (head.seq (i1 rest hw)).eq (fun _ _ _ _ => (hU _ _ _ _).symm) rfl
          | panic => rw [hw] at h; cases h
          | timeout => exact absurd hw i3
        · rw [e] at h
          cases hw : writeLoop fmt ds true false ind with
          | ok rest => rw [hw] at h; cases h
          | panic =>
            obtain ⟨t, ht⟩ := i2 hw
            exact ⟨_, (head.seq ht).eq (fun _ _ _ _ => (hU _ _ _ _).symm) rfl⟩
          | timeout => exact absurd hw i3
        · rw [e] at h
          cases hw : writeLoop fmt ds true false ind with
          | ok rest => rw [hw] at h; cases h
          | panic => rw [hw] at h; cases h
          | timeout => exact absurd hw i3

theorem flatMap_single {α β : Type} (f : α → β) (l : List α) : l.flatMap (fun a => [f a]) = l.map f := by
  induction l <;> simp_all

theorem writes_excerpt (C : Cut) (base : Nat) (range : Range) (i : Nat) (r : Range) (text : Str) (printed : Bool)
    {out : Str} {printed' : Bool} (h : excerpt range i r text printed = .ok (out, printed'))
    {f : ∀ (σ ε : Type), Writer σ ε → Bool → σ → Wrote σ ε} {t : Str} {p : Bool}
    (hf : Delivers (fun σ ε W s => f σ ε W printed' s) t p) :
    Delivers (fun σ ε W s => excerptTo W C base range i r text printed s (f σ ε W)) (out ++ t) p := by
  unfold excerpt at h
  unfold excerptTo
  cases hx : range.endsIntersect r with
  | none =>
    rw [hx] at h
    simp only [Comp.ok.injEq, Prod.mk.injEq] at h
    obtain ⟨rfl, rfl⟩ := h
    exact hf
  | some x =>
    rw [hx] at h
    simp only [] at h ⊢
    by_cases hge : x.offset ≥ r.offset
    · simp only [if_pos hge] at h ⊢
      simp only [checkedSub, if_pos hge, bind_ok] at h
      generalize hj : x.offset - r.offset = j at h
      simp only [subTo, if_pos hge, hj]
      have key : ∀ sk, sk = (if j > 75 then j - 50 else 0) →
          Delivers (fun σ ε W s =>
            (writeTo W C (base + 6) (dec (i + 1) ++ [','] ++ dec (j + 1) ++ c!": ") s).andThen fun s =>
            subTo (min (sk + 100) r.length) sk s fun n =>
            (forTo (fun c => writeTo W C (base + 8) [c]) ((text.drop sk).take n) s).andThen fun s =>
            (writeTo W C (base + 10) ['\n'] s).andThen fun s =>
            if printed then f σ ε W true s
            else
              (writeTo W C (base + 12) (dec (i + 1) ++ [','] ++ dec (j + 1) ++ c!": ") s).andThen fun s =>
              subTo j sk s fun m =>
              (forTo (padTo W C (base + 16)) ((text.drop sk).take m) s).andThen fun s =>
              (writeTo W C (base + 23) c!"^\n" s).andThen fun s =>
              f σ ε W true s) (out ++ t) p := by
        intro sk hsk
        have hjs : sk ≤ j := by rw [hsk]; split <;> omega
        have h' : (do
            let n ← checkedSub (min (sk + 100) r.length) sk
            let place := dec (i + 1) ++ [','] ++ dec (j + 1) ++ c!": "
            let o := place ++ (text.drop sk).take n ++ ['\n']
            if printed then Comp.ok (o, true)
            else do
              let m ← checkedSub j sk
              .ok (o ++ place ++ ((text.drop sk).take m).map (fun c => if c = '\t' then '\t' else ' ') ++ c!"^\n", true)) =
            .ok (out, printed') := by
          by_cases c : j > 75
          · simp only [if_pos c] at hsk
            subst hsk
            simpa only [if_pos c, if_pos (show 50 ≤ j by omega), bind_ok, checkedSub] using h
          · simp only [if_neg c] at hsk
            subst hsk
            simpa only [if_neg c, bind_ok, checkedSub, Nat.sub_zero] using h
        by_cases c : sk ≤ min (sk + 100) r.length
        · simp only [checkedSub, if_pos c, if_pos hjs, bind_ok] at h'
          simp only [subTo, if_pos c, if_pos hjs]
          have shown := Delivers.forEach (fun c : Char => Delivers.one C (base + 8) [c])
            ((text.drop sk).take (min (sk + 100) r.length - sk))
          cases printed with
          | true =>
            simp only [if_true, Comp.ok.injEq, Prod.mk.injEq] at h'
            obtain ⟨rfl, rfl⟩ := h'
            exact ((Delivers.one C (base + 6) _).seq (shown.seq ((Delivers.one C (base + 10) _).seq hf))).eq
              (fun _ _ _ _ => rfl) (by simp)
          | false =>
            simp only [Bool.false_eq_true, if_false, Comp.ok.injEq, Prod.mk.injEq] at h'
            obtain ⟨rfl, rfl⟩ := h'
            have pad := Delivers.forEach (f := fun σ ε W c s => padTo W C (base + 16) c s)
              (t := fun c => [if c = '\t' then '\t' else ' '])
              (fun c : Char => by
                unfold padTo
                split
                · exact Delivers.one ..
                · exact Delivers.one ..) ((text.drop sk).take (j - sk))
            exact ((Delivers.one C (base + 6) _).seq (shown.seq ((Delivers.one C (base + 10) _).seq
              ((Delivers.one C (base + 12) _).seq (pad.seq ((Delivers.one C (base + 23) _).seq hf)))))).eq
              (fun _ _ _ _ => rfl) (by simp [flatMap_single])
        · simp only [checkedSub, if_neg c] at h'
          cases h'
      by_cases c : j > 75
      · simp only [if_pos c, if_pos (show 50 ≤ j by omega)]
        exact key _ (by simp [c])
      · simp only [if_neg c]
        exact key _ (by simp [c])
    · simp only [if_neg hge, Comp.ok.injEq, Prod.mk.injEq] at h ⊢
      obtain ⟨rfl, rfl⟩ := h
      exact hf

theorem writes_excerpts (C : Cut) (base : Nat) (range : Range) (ls : List (Range × Str)) :
    ∀ (i : Nat) (printed : Bool) (t : Str), excerpts range i ls printed = .ok t →
      Delivers (fun _ _ W s => excerptsTo W C base range i ls printed s) t := by
  induction ls with
  | nil =>
    intro i printed t h
    simp only [excerpts, Comp.ok.injEq] at h
    exact Delivers.done.eq (fun _ _ _ _ => rfl) h
  | cons l ls ih =>
    obtain ⟨r, text⟩ := l
    intro i printed t h
    simp only [excerpts] at h
    cases he : excerpt range i r text printed with
    | ok v =>
      obtain ⟨out, pr⟩ := v
      rw [he] at h
      simp only [bind_ok] at h
      cases hr : excerpts range (i + 1) ls pr with
      | ok rest =>
        rw [hr] at h
        simp only [bind_ok, Comp.ok.injEq] at h
        exact (writes_excerpt C base range i r text printed he
          (f := fun σ ε W printed s => excerptsTo W C base range (i + 1) ls printed s)
          (ih (i + 1) pr rest hr)).eq (fun _ _ _ _ => rfl) h
      | panic => rw [hr] at h; cases h
      | timeout => rw [hr] at h; cases h
    | panic => rw [he] at h; cases h
    | timeout => rw [he] at h; cases h

theorem writes_plain (C : Cut) (ls : List (Range × Str)) : ∀ i : Nat,
    Delivers (fun _ _ W s => plainTo W C i ls s) (plainLines i ls) := by
  induction ls with
  | nil => intro i; exact Delivers.done
  | cons l ls ih =>
    obtain ⟨r, text⟩ := l
    intro i
    exact ((Delivers.one C 117 _).seq (ih (i + 1))).eq (fun _ _ _ _ => rfl) (by simp [plainLines])

theorem writes_before (C : Cut) (lines : List (Range × Str)) (range : Range) (err : ParseError) {t : Str}
    (h : linesBefore lines range err = .ok t) : Delivers (fun _ _ W s => beforeTo W C lines range err s) t := by
  unfold linesBefore at h
  unfold beforeTo
  split at h
  · next tag id =>
    cases hf : firstLine range lines with
    | none =>
      rw [hf] at h
      simp only [Comp.ok.injEq] at h
      exact Delivers.done.eq (fun _ _ _ _ => rfl) h
    | some n =>
      rw [hf] at h
      simp only [] at h ⊢
      split at h
      · next h1 =>
        split at h
        · next h2 =>
          simp only [Comp.ok.injEq] at h
          simp only [if_pos h1, if_pos h2]
          exact (writes_plain C _ _).eq (fun _ _ _ _ => rfl) h
        · cases h
      · cases h
  · next hne =>
    simp only [Comp.ok.injEq] at h
    refine Delivers.done.eq (fun σ ε W s => ?_) h
    split
    · next tag id => exact absurd rfl (hne tag id)
    · rfl

theorem writes_err (C : Cut) (E : ErrText) (lines : List (Range × Str)) (e : RErr) {t : Str}
    (h : writeErr E lines e = .ok t) : Delivers (fun _ _ W s => errTo W C E lines e s) t := by
  unfold writeErr at h
  cases hb : linesBefore lines e.range e.err with
  | ok b =>
    rw [hb] at h
    simp only [bind_ok] at h
    cases hx : excerpts e.range 0 lines false with
    | ok x =>
      rw [hx] at h
      simp only [bind_ok, Comp.ok.injEq] at h
      exact ((Delivers.one C 103 _).seq ((writes_before C lines e.range e.err hb).seq
        (writes_excerpts C 122 e.range lines 0 false x hx))).eq (fun _ _ _ _ => rfl) (by rw [← h]; simp)
    | panic => rw [hx] at h; cases h
    | timeout => rw [hx] at h; cases h
  | panic => rw [hb] at h; cases h
  | timeout => rw [hb] at h; cases h

theorem writes_msg (C : Cut) (lines : List (Range × Str)) (range : Range) (msg : Str) {t : Str}
    (h : writeMsg lines range msg = .ok t) : Delivers (fun _ _ W s => msgTo W C lines range msg s) t := by
  unfold writeMsg at h
  cases hx : excerpts range 0 lines false with
  | ok x =>
    rw [hx] at h
    simp only [bind_ok, Comp.ok.injEq] at h
    exact ((Delivers.one C 46 _).seq (writes_excerpts C 48 range lines 0 false x hx)).eq (fun _ _ _ _ => rfl)
      (by rw [← h])
  | panic => rw [hx] at h; cases h
  | timeout => rw [hx] at h; cases h

/-- What a writer that keeps its text holds after `putAll`. -/
theorem putAll_keeps {σ ε : Type} {W : Writer σ ε} {content : σ → Str} (hW : Keeps W content) (ps : List Str) :
    ∀ s, (∀ s', putAll W ps s = .ok s' → content s' = content s ++ ps.flatten) ∧
      (∀ e s', putAll W ps s = .err e s' → ∃ q, q <+: ps.flatten ∧ content s' = content s ++ q) ∧
      ∀ s', putAll W ps s ≠ .panic s' := by
  induction ps with
  | nil => intro s; simp [putAll]
  | cons p ps ih =>
    intro s
    simp only [putAll]
    cases h : W.put s p with
    | mk r s1 =>
      cases r with
      | ok u =>
        have h1 := hW.ok s p s1 h
        obtain ⟨i1, i2, i3⟩ := ih s1
        refine ⟨fun s' e => ?_, fun e s' h => ?_, i3⟩
        · rw [i1 s' e, h1]; simp
        · obtain ⟨q, hq, hc⟩ := i2 e s' h
          exact ⟨p ++ q, by simpa using hq, by rw [hc, h1]; simp⟩
      | error e =>
        refine ⟨fun s' e => (by cases e), fun e' s' h' => ?_, fun s' h' => (by cases h')⟩
        cases h'
        obtain ⟨q, hq, hc⟩ := hW.err s p e s1 h
        refine ⟨q, hq.trans ?_, hc⟩
        simp

theorem putAll_growing (ps : List Str) : ∀ s, putAll growing ps s = .ok (s ++ ps.flatten) := by
  induction ps with
  | nil => intro s; simp [putAll]
  | cons p ps ih => intro s; simp [putAll, growing] ; have := ih (s ++ p); simp [growing] at this; exact this

theorem putAll_capped (k : Nat) (ps : List Str) : ∀ s : Str, s.length ≤ k →
    putAll (capped k) ps s = if (s ++ ps.flatten).length ≤ k then .ok (s ++ ps.flatten)
      else .err () ((s ++ ps.flatten).take k) := by
  induction ps with
  | nil => intro s h; simp [putAll, h]
  | cons p ps ih =>
    intro s h
    simp only [putAll]
    by_cases c : (s ++ p).length ≤ k
    · have e : (capped k).put s p = (.ok (), s ++ p) := by
        simp only [capped, if_pos c, List.take_of_length_le c]
      rw [e]
      simp only [ih (s ++ p) c, List.flatten_cons, List.append_assoc]
    · have e : (capped k).put s p = (.error (), (s ++ p).take k) := by simp only [capped, if_neg c]
      rw [e, if_neg (by simp at c ⊢; omega)]
      simp only [List.flatten_cons, ← List.append_assoc]
      rw [List.take_append_of_le_length (l₁ := s ++ p) (by omega)]

theorem capped_keeps (k : Nat) : Keeps (ε := Unit) (σ := {s : Str // s.length ≤ k})
    ⟨fun s p => (((capped k).put s.1 p).1, ⟨((capped k).put s.1 p).2, by simp [capped]; omega⟩)⟩ (·.1) where
  ok := by
    rintro ⟨s, hs⟩ p s' h
    simp only [capped, Prod.mk.injEq] at h
    obtain ⟨h1, rfl⟩ := h
    split at h1
    · next c => exact List.take_of_length_le c
    · cases h1
  err := by
    rintro ⟨s, hs⟩ p e s' h
    simp only [capped, Prod.mk.injEq] at h
    obtain ⟨h1, rfl⟩ := h
    refine ⟨p.take (k - s.length), List.take_prefix _ _, ?_⟩
    simp [List.take_append, List.take_of_length_le hs]

end Verif
