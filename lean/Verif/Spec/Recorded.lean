import Verif.Spec.Run
/-
What is recorded while rules are tried, also on the ways that are given up.

`Recs E g p i h`: trying `g` at position `p` with current indentation `i` records items one after
another, and `h` is the list of what stands recorded after each of them: the data of what has been
read so far on the way taken, and the item.  Data of a way that has been given up is no longer
there when the next item is recorded -- but it is there until then.

Which way is taken is a matter of `Run`; there is no vector, no state and no truncation here.
-/
namespace Verif.Spec

/-- The rules without parts. -/
def Leaf : Rule → Prop
  | .whitespace .. | .tag .. | .untilAny .. | .untilAnyOrWs .. | .text .. | .number .. => True
  | _ => False

/-- What stands recorded, when it is recorded after the data `ts`. -/
def behind (ts : List Tok) (h : List (List Tok)) : List (List Tok) := h.map (ts ++ ·)

inductive Recs (E : Env) : Goal → Pos → Nat → List (List Tok) → Prop
  -- rules without parts record their item, if they have a name and do not fail
  | leaf_ok {r p i n ts j tr} (hl : Leaf r) (h : Run E (.rule r) p i (some (n, ts)) j tr) :
      Recs E (.rule r) p i (ts.map ([·]))
  | leaf_fail {r p i j tr} (hl : Leaf r) (h : Run E (.rule r) p i none j tr) : Recs E (.rule r) p i []
  -- select: one alternative after the other
  | select {rs id p i a} (h : Recs E (.sel rs) p i a) : Recs E (.rule (.select rs id)) p i a
  | sel_nil {p i} : Recs E (.sel []) p i []
  | sel_here {r rs p i x j tr a} (h : Run E (.rule r) p i (some x) j tr) (ha : Recs E (.rule r) p i a) :
      Recs E (.sel (r :: rs)) p i a
  | sel_next {r rs p i j tr a b} (h : Run E (.rule r) p i none j tr) (ha : Recs E (.rule r) p i a)
      (hb : Recs E (.sel rs) p j b) : Recs E (.sel (r :: rs)) p i (a ++ b)
  | fast_end {tb args tail id p i} (h : p.src = []) : Recs E (.rule (.fastSelect tb args tail id)) p i []
  | fast_miss {tb args id p i c cs b bs} (h : p.src = c :: cs) (hb : String.utf8EncodeChar c = b :: bs)
      (ht : tb b = 255) : Recs E (.rule (.fastSelect tb args false id)) p i []
  | fast_hit {tb args id p i c cs b bs r a} (h : p.src = c :: cs) (hb : String.utf8EncodeChar c = b :: bs)
      (ht : tb b ≠ 255) (hr : args[(tb b).toNat]? = some r) (ha : Recs E (.rule r) p i a) :
      Recs E (.rule (.fastSelect tb args false id)) p i a
  | fastTail_miss {tb args id p i c cs b bs r a} (h : p.src = c :: cs)
      (hb : String.utf8EncodeChar c = b :: bs) (ht : tb b = 255) (hr : args.getLast? = some r)
      (ha : Recs E (.rule r) p i a) : Recs E (.rule (.fastSelect tb args true id)) p i a
  | fastTail_hit {tb args id p i c cs b bs r x j tr a} (h : p.src = c :: cs)
      (hb : String.utf8EncodeChar c = b :: bs) (ht : tb b ≠ 255) (hr : args[(tb b).toNat]? = some r)
      (h' : Run E (.rule r) p i (some x) j tr) (ha : Recs E (.rule r) p i a) :
      Recs E (.rule (.fastSelect tb args true id)) p i a
  | fastTail_next {tb args id p i c cs b bs r r' j tr a a'} (h : p.src = c :: cs)
      (hb : String.utf8EncodeChar c = b :: bs) (ht : tb b ≠ 255) (hr : args[(tb b).toNat]? = some r)
      (h' : Run E (.rule r) p i none j tr) (ha : Recs E (.rule r) p i a)
      (hr' : args.getLast? = some r') (ha' : Recs E (.rule r') p j a') :
      Recs E (.rule (.fastSelect tb args true id)) p i (a ++ a')
  -- sequence: what is recorded later comes behind the data so far
  | sequence {rs id p i a} (h : Recs E (.seq rs) p i a) : Recs E (.rule (.sequence rs id)) p i a
  | seq_nil {p i} : Recs E (.seq []) p i []
  | seq_fail {r rs p i j tr a} (h : Run E (.rule r) p i none j tr) (ha : Recs E (.rule r) p i a) :
      Recs E (.seq (r :: rs)) p i a
  | seq_cons {r rs p i n ts j tr a b} (h : Run E (.rule r) p i (some (n, ts)) j tr)
      (ha : Recs E (.rule r) p i a) (hb : Recs E (.seq rs) (adv p n) j b) :
      Recs E (.seq (r :: rs)) p i (a ++ behind ts b)
  -- repeat, the last try included
  | rep {r opt id p i a} (h : Recs E (.rep r) p i a) : Recs E (.rule (.repeat_ r opt id)) p i a
  | rep_stop {r p i j tr a} (h : Run E (.rule r) p i none j tr) (ha : Recs E (.rule r) p i a) :
      Recs E (.rep r) p i a
  | rep_more {r p i n ts j tr a b} (h : Run E (.rule r) p i (some (n, ts)) j tr)
      (ha : Recs E (.rule r) p i a) (hb : Recs E (.rep r) (adv p n) j b) :
      Recs E (.rep r) p i (a ++ behind ts b)
  -- separated by
  | sep_none {r b opt trail id p i j tr a} (h : Run E (.rule r) p i none j tr)
      (ha : Recs E (.rule r) p i a) : Recs E (.rule (.separateBy r b opt trail id)) p i a
  | sep_first {r b opt trail id p i n ts j tr a c} (h : Run E (.rule r) p i (some (n, ts)) j tr)
      (ha : Recs E (.rule r) p i a) (hc : Recs E (.sepTail r b trail) (adv p n) j c) :
      Recs E (.rule (.separateBy r b opt trail id)) p i (a ++ behind ts c)
  | sep_stop {r b trail p i j tr a} (h : Run E (.rule b) p i none j tr) (ha : Recs E (.rule b) p i a) :
      Recs E (.sepTail r b trail) p i a
  | sep_last {r b trail p i m us j tr k tr' a c} (h : Run E (.rule b) p i (some (m, us)) j tr)
      (ha : Recs E (.rule b) p i a) (h' : Run E (.rule r) (adv p m) j none k tr')
      (hc : Recs E (.rule r) (adv p m) j c) : Recs E (.sepTail r b trail) p i (a ++ behind us c)
  | sep_more {r b trail p i m us j tr n ts k tr' a c d} (h : Run E (.rule b) p i (some (m, us)) j tr)
      (ha : Recs E (.rule b) p i a) (h' : Run E (.rule r) (adv p m) j (some (n, ts)) k tr')
      (hc : Recs E (.rule r) (adv p m) j c) (hd : Recs E (.sepTail r b trail) (adv p (m + n)) k d) :
      Recs E (.sepTail r b trail) p i (a ++ behind us (c ++ behind ts d))
  -- lines
  | lines {r ind id p i a} (h : Recs E (.lines r ind id true []) p i a) :
      Recs E (.rule (.lines r ind id)) p i a
  | lines_done {r ind id first item p i k} (h : E.L.lineNext first item p.src = .done k) :
      Recs E (.lines r ind id first item) p i []
  | lines_fail {r ind id first item p i k} (h : E.L.lineNext first item p.src = .fail k) :
      Recs E (.lines r ind id first item) p i []
  | lines_stop {r ind id first item p i k j tr a} (h : E.L.lineNext first item p.src = .call k)
      (h' : Run E (.line r ind first) (adv p k) i none j tr)
      (ha : Recs E (.line r ind first) (adv p k) i a) : Recs E (.lines r ind id first item) p i a
  | lines_more {r ind id first item p i k n ts j tr a b} (h : E.L.lineNext first item p.src = .call k)
      (h' : Run E (.line r ind first) (adv p k) i (some (n, ts)) j tr)
      (ha : Recs E (.line r ind first) (adv p k) i a)
      (hb : Recs E (.lines r ind id false ((p.src.drop k).take n)) (adv p (k + n)) j b) :
      Recs E (.lines r ind id first item) p i (a ++ behind ts b)
  | line_plain {r first p i a} (h : Recs E (.rule r) p i a) : Recs E (.line r false first) p i a
  | line_shallow {r first p i} (h : ¬ ∃ k, Carries E.tab i p.src k) : Recs E (.line r true first) p i []
  | line_deep {r first p i k} (ha : ¬ (first = true ∧ E.align = true)) (h : Carries E.tab i p.src k)
      (hd : (p.src.drop k).head? = some ' ') : Recs E (.line r true first) p i []
  | line_body {r first p i k a} (ha : ¬ (first = true ∧ E.align = true)) (h : Carries E.tab i p.src k)
      (hd : (p.src.drop k).head? ≠ some ' ') (h' : Recs E (.rule r) (adv p k) (i + 1) a) :
      Recs E (.line r true first) p i a
  | line_align {r p i k m a} (ha : E.align = true) (h : Carries E.tab i p.src k)
      (hm : Longest Blank (p.src.drop k) m)
      (h' : Recs E (.rule r) (adv p (k + m)) (i + width E.tab ((p.src.drop k).take m) + 1) a) :
      Recs E (.line r true true) p i a
  -- node: its start before anything else, its end if it does not fail
  | node_unresolved {name prop id p i} : Recs E (.rule (.node name prop none id)) p i []
  | node_plain {name ix id p i r a} (hr : E.refs[ix]? = some r) (ha : Recs E (.rule r) p i a) :
      Recs E (.rule (.node name none (some ix) id)) p i a
  | node_fail {name x ix id p i r j tr a} (hr : E.refs[ix]? = some r) (h : Run E (.rule r) p i none j tr)
      (ha : Recs E (.rule r) p i a) :
      Recs E (.rule (.node name (some x) (some ix) id)) p i
        (behind [⟨⟨p.off, 0⟩, .startNode x⟩] ([] :: a))
  | node_ok {name x ix id p i r n ts j tr a} (hr : E.refs[ix]? = some r)
      (h : Run E (.rule r) p i (some (n, ts)) j tr) (ha : Recs E (.rule r) p i a) :
      Recs E (.rule (.node name (some x) (some ix) id)) p i
        (behind [⟨⟨p.off, 0⟩, .startNode x⟩] ([] :: a ++ behind ts [[⟨⟨p.off, n⟩, .endNode x⟩]]))
  -- optional and not: what is recorded on the way
  | optional {r id p i a} (h : Recs E (.rule r) p i a) : Recs E (.rule (.optional r id)) p i a
  | not {r id p i a} (h : Recs E (.rule r) p i a) : Recs E (.rule (.not r id)) p i a

end Verif.Spec
