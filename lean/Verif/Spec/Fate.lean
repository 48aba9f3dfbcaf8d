import Verif.Spec.Run
/-
What can become of trying a rule, besides an outcome.

A site is a goal at a position with the current indentation.  `Tries E x y`: trying `x` comes to
trying `y`; that is, what `x` tries before `y` has an outcome after which it is the turn of `y`.
`Crash E x`: the attempt panics at `x` itself.
-/
namespace Verif.Spec

structure Site where
  g : Goal
  p : Pos
  i : Nat

inductive Tries (E : Env) : Site → Site → Prop
  -- select
  | select {rs id p i} : Tries E ⟨.rule (.select rs id), p, i⟩ ⟨.sel rs, p, i⟩
  | sel {r rs p i} : Tries E ⟨.sel (r :: rs), p, i⟩ ⟨.rule r, p, i⟩
  | sel_next {r rs p i j tr} (h : Run E (.rule r) p i none j tr) :
      Tries E ⟨.sel (r :: rs), p, i⟩ ⟨.sel rs, p, j⟩
  | fast_hit {tb args tail id p i c cs b bs r} (h : p.src = c :: cs)
      (hb : String.utf8EncodeChar c = b :: bs) (ht : tb b ≠ 255) (hr : args[(tb b).toNat]? = some r) :
      Tries E ⟨.rule (.fastSelect tb args tail id), p, i⟩ ⟨.rule r, p, i⟩
  | fast_miss {tb args id p i c cs b bs r} (h : p.src = c :: cs)
      (hb : String.utf8EncodeChar c = b :: bs) (ht : tb b = 255) (hr : args.getLast? = some r) :
      Tries E ⟨.rule (.fastSelect tb args true id), p, i⟩ ⟨.rule r, p, i⟩
  | fast_next {tb args id p i c cs b bs r r' j tr} (h : p.src = c :: cs)
      (hb : String.utf8EncodeChar c = b :: bs) (ht : tb b ≠ 255) (hr : args[(tb b).toNat]? = some r)
      (h' : Run E (.rule r) p i none j tr) (hr' : args.getLast? = some r') :
      Tries E ⟨.rule (.fastSelect tb args true id), p, i⟩ ⟨.rule r', p, j⟩
  -- sequence
  | sequence {rs id p i} : Tries E ⟨.rule (.sequence rs id), p, i⟩ ⟨.seq rs, p, i⟩
  | seq {r rs p i} : Tries E ⟨.seq (r :: rs), p, i⟩ ⟨.rule r, p, i⟩
  | seq_next {r rs p i n ts j tr} (h : Run E (.rule r) p i (some (n, ts)) j tr) :
      Tries E ⟨.seq (r :: rs), p, i⟩ ⟨.seq rs, adv p n, j⟩
  -- repeat
  | repeat_ {r opt id p i} : Tries E ⟨.rule (.repeat_ r opt id), p, i⟩ ⟨.rep r, p, i⟩
  | rep {r p i} : Tries E ⟨.rep r, p, i⟩ ⟨.rule r, p, i⟩
  | rep_next {r p i n ts j tr} (h : Run E (.rule r) p i (some (n, ts)) j tr) :
      Tries E ⟨.rep r, p, i⟩ ⟨.rep r, adv p n, j⟩
  -- separated by
  | sep {r b opt trail id p i} : Tries E ⟨.rule (.separateBy r b opt trail id), p, i⟩ ⟨.rule r, p, i⟩
  | sep_next {r b opt trail id p i n ts j tr} (h : Run E (.rule r) p i (some (n, ts)) j tr) :
      Tries E ⟨.rule (.separateBy r b opt trail id), p, i⟩ ⟨.sepTail r b trail, adv p n, j⟩
  | tail {r b trail p i} : Tries E ⟨.sepTail r b trail, p, i⟩ ⟨.rule b, p, i⟩
  | tail_item {r b trail p i m us j tr} (h : Run E (.rule b) p i (some (m, us)) j tr) :
      Tries E ⟨.sepTail r b trail, p, i⟩ ⟨.rule r, adv p m, j⟩
  | tail_next {r b trail p i m us j tr n ts k tr'} (h : Run E (.rule b) p i (some (m, us)) j tr)
      (h' : Run E (.rule r) (adv p m) j (some (n, ts)) k tr') :
      Tries E ⟨.sepTail r b trail, p, i⟩ ⟨.sepTail r b trail, adv p (m + n), k⟩
  -- lines
  | lines {r ind id p i} : Tries E ⟨.rule (.lines r ind id), p, i⟩ ⟨.lines r ind id true [], p, i⟩
  | lines_line {r ind id first item p i k} (h : E.L.lineNext first item p.src = .call k) :
      Tries E ⟨.lines r ind id first item, p, i⟩ ⟨.line r ind first, adv p k, i⟩
  | lines_next {r ind id first item p i k n ts j tr} (h : E.L.lineNext first item p.src = .call k)
      (h' : Run E (.line r ind first) (adv p k) i (some (n, ts)) j tr) :
      Tries E ⟨.lines r ind id first item, p, i⟩
        ⟨.lines r ind id false ((p.src.drop k).take n), adv p (k + n), j⟩
  | line_plain {r first p i} : Tries E ⟨.line r false first, p, i⟩ ⟨.rule r, p, i⟩
  | line_body {r first p i k} (ha : ¬ (first = true ∧ E.align = true)) (h : Carries E.tab i p.src k)
      (hd : (p.src.drop k).head? ≠ some ' ') (hi : i + 1 < 2 ^ 32) :
      Tries E ⟨.line r true first, p, i⟩ ⟨.rule r, adv p k, i + 1⟩
  | line_align {r p i k m} (ha : E.align = true) (h : Carries E.tab i p.src k)
      (hm : Longest Blank (p.src.drop k) m) (hi : i + width E.tab ((p.src.drop k).take m) + 1 < 2 ^ 32) :
      Tries E ⟨.line r true true, p, i⟩
        ⟨.rule r, adv p (k + m), i + width E.tab ((p.src.drop k).take m) + 1⟩
  -- the others
  | node {name prop ix id p i r} (hr : E.refs[ix]? = some r) :
      Tries E ⟨.rule (.node name prop (some ix) id), p, i⟩ ⟨.rule r, p, i⟩
  | optional {r id p i} : Tries E ⟨.rule (.optional r id), p, i⟩ ⟨.rule r, p, i⟩
  | not {r id p i} : Tries E ⟨.rule (.not r id), p, i⟩ ⟨.rule r, p, i⟩

/-- The places where an attempt panics: an index out of range, and an indentation that does not fit
into 32 bits. -/
inductive Crash (E : Env) : Site → Prop
  | table {tb args tail id p i c cs b bs} (h : p.src = c :: cs)
      (hb : String.utf8EncodeChar c = b :: bs) (ht : tb b ≠ 255) (hr : args[(tb b).toNat]? = none) :
      Crash E ⟨.rule (.fastSelect tb args tail id), p, i⟩
  | last {tb id p i c cs b bs} (h : p.src = c :: cs)
      (hb : String.utf8EncodeChar c = b :: bs) (ht : tb b = 255) :
      Crash E ⟨.rule (.fastSelect tb [] true id), p, i⟩
  | node {name prop ix id p i} (hr : E.refs[ix]? = none) :
      Crash E ⟨.rule (.node name prop (some ix) id), p, i⟩
  | line {r first p i k} (ha : ¬ (first = true ∧ E.align = true)) (h : Carries E.tab i p.src k)
      (hd : (p.src.drop k).head? ≠ some ' ') (hi : ¬ i + 1 < 2 ^ 32) : Crash E ⟨.line r true first, p, i⟩
  | align {r p i k m} (ha : E.align = true) (h : Carries E.tab i p.src k)
      (hm : Longest Blank (p.src.drop k) m) (hi : ¬ i + width E.tab ((p.src.drop k).take m) + 1 < 2 ^ 32) :
      Crash E ⟨.line r true true, p, i⟩

/-- From one site to another by trying, in any number of steps. -/
inductive Reaches (E : Env) : Site → Site → Prop
  | here {x} : Reaches E x x
  | step {x y z} (h : Tries E x y) (h' : Reaches E y z) : Reaches E x z

end Verif.Spec
