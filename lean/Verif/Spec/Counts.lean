import Verif.Spec.Recorded
/-
How many calls of `Rule::parse` the meaning of a rule comes to, and how deep they nest.

`Counts E g p i c d`: trying `g` at position `p` with current indentation `i` comes to `c` calls of
which at most `d` are inside each other.  For a rule, the call of the rule itself is included.  The
clauses follow those of `Run`, which they use to say what is tried next.  There is no token vector,
no error and no fuel here either.
-/
namespace Verif.Spec

/-- The calls a goal comes to. -/
inductive Counts (E : Env) : Goal → Pos → Nat → Nat → Nat → Prop
  | leaf {r p i} (h : Leaf r) : Counts E (.rule r) p i 1 1
  -- select
  | select {rs id p i c d} (h : Counts E (.sel rs) p i c d) :
      Counts E (.rule (.select rs id)) p i (1 + c) (1 + d)
  | sel_nil {p i} : Counts E (.sel []) p i 0 0
  | sel_here {r rs p i x j tr c d} (h : Run E (.rule r) p i (some x) j tr)
      (hc : Counts E (.rule r) p i c d) : Counts E (.sel (r :: rs)) p i c d
  | sel_next {r rs p i j tr c d c' d'} (h : Run E (.rule r) p i none j tr)
      (hc : Counts E (.rule r) p i c d) (hc' : Counts E (.sel rs) p j c' d') :
      Counts E (.sel (r :: rs)) p i (c + c') (max d d')
  -- select with a look-up table for the first byte
  | fast_end {tb args tail id p i} (h : p.src = []) :
      Counts E (.rule (.fastSelect tb args tail id)) p i 1 1
  | fast_miss {tb args id p i ch cs b bs} (h : p.src = ch :: cs)
      (hb : String.utf8EncodeChar ch = b :: bs) (ht : tb b = 255) :
      Counts E (.rule (.fastSelect tb args false id)) p i 1 1
  | fast_hit {tb args id p i ch cs b bs r c d} (h : p.src = ch :: cs)
      (hb : String.utf8EncodeChar ch = b :: bs) (ht : tb b ≠ 255)
      (hr : args[(tb b).toNat]? = some r) (hc : Counts E (.rule r) p i c d) :
      Counts E (.rule (.fastSelect tb args false id)) p i (1 + c) (1 + d)
  | fastTail_miss {tb args id p i ch cs b bs r c d} (h : p.src = ch :: cs)
      (hb : String.utf8EncodeChar ch = b :: bs) (ht : tb b = 255)
      (hr : args.getLast? = some r) (hc : Counts E (.rule r) p i c d) :
      Counts E (.rule (.fastSelect tb args true id)) p i (1 + c) (1 + d)
  | fastTail_hit {tb args id p i ch cs b bs r x j tr c d} (h : p.src = ch :: cs)
      (hb : String.utf8EncodeChar ch = b :: bs) (ht : tb b ≠ 255)
      (hr : args[(tb b).toNat]? = some r) (h' : Run E (.rule r) p i (some x) j tr)
      (hc : Counts E (.rule r) p i c d) :
      Counts E (.rule (.fastSelect tb args true id)) p i (1 + c) (1 + d)
  | fastTail_next {tb args id p i ch cs b bs r r' j tr c d c' d'} (h : p.src = ch :: cs)
      (hb : String.utf8EncodeChar ch = b :: bs) (ht : tb b ≠ 255)
      (hr : args[(tb b).toNat]? = some r) (h' : Run E (.rule r) p i none j tr)
      (hc : Counts E (.rule r) p i c d) (hr' : args.getLast? = some r')
      (hc' : Counts E (.rule r') p j c' d') :
      Counts E (.rule (.fastSelect tb args true id)) p i (1 + (c + c')) (1 + max d d')
  -- sequence
  | sequence {rs id p i c d} (h : Counts E (.seq rs) p i c d) :
      Counts E (.rule (.sequence rs id)) p i (1 + c) (1 + d)
  | seq_nil {p i} : Counts E (.seq []) p i 0 0
  | seq_fail {r rs p i j tr c d} (h : Run E (.rule r) p i none j tr)
      (hc : Counts E (.rule r) p i c d) : Counts E (.seq (r :: rs)) p i c d
  | seq_cons {r rs p i n ts j tr c d c' d'} (h : Run E (.rule r) p i (some (n, ts)) j tr)
      (hc : Counts E (.rule r) p i c d) (hc' : Counts E (.seq rs) (adv p n) j c' d') :
      Counts E (.seq (r :: rs)) p i (c + c') (max d d')
  -- repeat
  | repeat_ {r opt id p i c d} (h : Counts E (.rep r) p i c d) :
      Counts E (.rule (.repeat_ r opt id)) p i (1 + c) (1 + d)
  | rep_stop {r p i j tr c d} (h : Run E (.rule r) p i none j tr)
      (hc : Counts E (.rule r) p i c d) : Counts E (.rep r) p i c d
  | rep_more {r p i n ts j tr c d c' d'} (h : Run E (.rule r) p i (some (n, ts)) j tr)
      (hc : Counts E (.rule r) p i c d) (hc' : Counts E (.rep r) (adv p n) j c' d') :
      Counts E (.rep r) p i (c + c') (max d d')
  -- separated by
  | sep_none {r b opt trail id p i j tr c d} (h : Run E (.rule r) p i none j tr)
      (hc : Counts E (.rule r) p i c d) :
      Counts E (.rule (.separateBy r b opt trail id)) p i (1 + c) (1 + d)
  | sep_first {r b opt trail id p i n ts j tr c d c' d'}
      (h : Run E (.rule r) p i (some (n, ts)) j tr) (hc : Counts E (.rule r) p i c d)
      (hc' : Counts E (.sepTail r b trail) (adv p n) j c' d') :
      Counts E (.rule (.separateBy r b opt trail id)) p i (1 + (c + c')) (1 + max d d')
  | sep_stop {r b trail p i j tr c d} (h : Run E (.rule b) p i none j tr)
      (hc : Counts E (.rule b) p i c d) : Counts E (.sepTail r b trail) p i c d
  | sep_end {r b trail p i m us j tr k tr' c d c' d'}
      (h : Run E (.rule b) p i (some (m, us)) j tr) (hc : Counts E (.rule b) p i c d)
      (h' : Run E (.rule r) (adv p m) j none k tr')
      (hc' : Counts E (.rule r) (adv p m) j c' d') :
      Counts E (.sepTail r b trail) p i (c + c') (max d d')
  | sep_more {r b trail p i m us j tr n ts k tr' c d c' d' c'' d''}
      (h : Run E (.rule b) p i (some (m, us)) j tr) (hc : Counts E (.rule b) p i c d)
      (h' : Run E (.rule r) (adv p m) j (some (n, ts)) k tr')
      (hc' : Counts E (.rule r) (adv p m) j c' d')
      (hc'' : Counts E (.sepTail r b trail) (adv p (m + n)) k c'' d'') :
      Counts E (.sepTail r b trail) p i (c + (c' + c'')) (max d (max d' d''))
  -- lines
  | lines {r ind id p i c d} (h : Counts E (.lines r ind id true []) p i c d) :
      Counts E (.rule (.lines r ind id)) p i (1 + c) (1 + d)
  | lines_done {r ind id first item p i k} (h : E.L.lineNext first item p.src = .done k) :
      Counts E (.lines r ind id first item) p i 0 0
  | lines_fail {r ind id first item p i k} (h : E.L.lineNext first item p.src = .fail k) :
      Counts E (.lines r ind id first item) p i 0 0
  | lines_stop {r ind id first item p i k j tr c d}
      (h : E.L.lineNext first item p.src = .call k)
      (h' : Run E (.line r ind first) (adv p k) i none j tr)
      (hc : Counts E (.line r ind first) (adv p k) i c d) :
      Counts E (.lines r ind id first item) p i c d
  | lines_more {r ind id first item p i k n ts j tr c d c' d'}
      (h : E.L.lineNext first item p.src = .call k)
      (h' : Run E (.line r ind first) (adv p k) i (some (n, ts)) j tr)
      (hc : Counts E (.line r ind first) (adv p k) i c d)
      (hc' : Counts E (.lines r ind id false ((p.src.drop k).take n)) (adv p (k + n)) j c' d') :
      Counts E (.lines r ind id first item) p i (c + c') (max d d')
  | line_plain {r first p i c d} (hc : Counts E (.rule r) p i c d) :
      Counts E (.line r false first) p i c d
  | line_shallow {r first p i} (h : ¬ ∃ k, Carries E.tab i p.src k) :
      Counts E (.line r true first) p i 0 0
  | line_deep {r first p i k} (ha : ¬ (first = true ∧ E.align = true))
      (h : Carries E.tab i p.src k) (hd : (p.src.drop k).head? = some ' ') :
      Counts E (.line r true first) p i 0 0
  | line_body {r first p i k c d} (ha : ¬ (first = true ∧ E.align = true))
      (h : Carries E.tab i p.src k) (hd : (p.src.drop k).head? ≠ some ' ')
      (hc : Counts E (.rule r) (adv p k) (i + 1) c d) :
      Counts E (.line r true first) p i c d
  | line_align {r p i k m c d} (ha : E.align = true)
      (h : Carries E.tab i p.src k) (hm : Longest Blank (p.src.drop k) m)
      (hc : Counts E (.rule r) (adv p (k + m)) (i + width E.tab ((p.src.drop k).take m) + 1) c d) :
      Counts E (.line r true true) p i c d
  -- node
  | node_unresolved {name prop id p i} : Counts E (.rule (.node name prop none id)) p i 1 1
  | node {name prop ix id p i r c d} (hr : E.refs[ix]? = some r)
      (hc : Counts E (.rule r) p i c d) :
      Counts E (.rule (.node name prop (some ix) id)) p i (1 + c) (1 + d)
  -- optional and not
  | optional {r id p i c d} (hc : Counts E (.rule r) p i c d) :
      Counts E (.rule (.optional r id)) p i (1 + c) (1 + d)
  | not {r id p i c d} (hc : Counts E (.rule r) p i c d) :
      Counts E (.rule (.not r id)) p i (1 + c) (1 + d)

end Verif.Spec
