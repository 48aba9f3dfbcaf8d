import Verif.Spec.Emits
import Verif.Spec.Compose
/-
The data that may occur, said without texts.
-/
namespace Verif.Spec

/-- Some number has this value. -/
def NumberValue (L : Lexer) (us : Bool) (v : F64) : Prop := ∃ y, L.num us y = some y.length ∧ L.parseNum us y y.length = .ok v

/-- Only the empty quoted string stands for the empty string. -/
def EmptyQuotes (L : Lexer) : Prop := ∀ y n, L.str y = some n → L.parseStr y n = .ok [] → n = 2

/-- `DataOf L refs g ds`: the rules give the data `ds`; the values of strings and numbers are those that the rules allow.  There are no
inverted tags, lines, look-ahead and look-up tables. -/
inductive DataOf (L : Lexer) (refs : List Rule) : Goal → List MetaData → Prop
  | whitespace {opt id} : DataOf L refs (.rule (.whitespace opt id)) []
  | tag {t inv prop id} : DataOf L refs (.rule (.tag t false inv prop id)) (datum prop (.bool · (!inv)))
  | untilAny {any opt prop id s} (h : ∀ c ∈ s, c ∉ any) (h0 : s = [] → opt = true) :
      DataOf L refs (.rule (.untilAny any opt prop id)) (datum prop (.string · s))
  | untilAnyOrWs {any opt prop id s} (h : ∀ c ∈ s, c ∉ any ∧ isWs c = false) (h0 : s = [] → opt = true) :
      DataOf L refs (.rule (.untilAnyOrWs any opt prop id)) (datum prop (.string · s))
  | text {empty prop id s} (h0 : s = [] → empty = true) : DataOf L refs (.rule (.text empty prop id)) (datum prop (.string · s))
  | number {prop us id v} (h : NumberValue L us v) : DataOf L refs (.rule (.number prop us id)) (datum prop (.f64 · v))
  | select {r rs id ds} (hr : r ∈ rs) (h : DataOf L refs (.rule r) ds) : DataOf L refs (.rule (.select rs id)) ds
  | sequence {rs id ds} (h : DataOf L refs (.seq rs) ds) : DataOf L refs (.rule (.sequence rs id)) ds
  | seq_nil : DataOf L refs (.seq []) []
  | seq_cons {r rs ds es} (h : DataOf L refs (.rule r) ds) (h' : DataOf L refs (.seq rs) es) : DataOf L refs (.seq (r :: rs)) (ds ++ es)
  | repeat_any {r id ds} (h : DataOf L refs (.rep r) ds) : DataOf L refs (.rule (.repeat_ r true id)) ds
  | repeat_some {r id ds es} (h : DataOf L refs (.rule r) ds) (h' : DataOf L refs (.rep r) es) :
      DataOf L refs (.rule (.repeat_ r false id)) (ds ++ es)
  | rep_nil {r} : DataOf L refs (.rep r) []
  | rep_cons {r ds es} (h : DataOf L refs (.rule r) ds) (h' : DataOf L refs (.rep r) es) : DataOf L refs (.rep r) (ds ++ es)
  | sep_none {r b trail id} : DataOf L refs (.rule (.separateBy r b true trail id)) []
  | sep_some {r b opt trail id ds es} (h : DataOf L refs (.rule r) ds) (h' : DataOf L refs (.sepTail r b trail) es) :
      DataOf L refs (.rule (.separateBy r b opt trail id)) (ds ++ es)
  | tail_nil {r b trail} : DataOf L refs (.sepTail r b trail) []
  | tail_trail {r b ds} (h : DataOf L refs (.rule b) ds) : DataOf L refs (.sepTail r b true) ds
  | tail_cons {r b trail cs ds es} (h : DataOf L refs (.rule b) cs) (h' : DataOf L refs (.rule r) ds) (h'' : DataOf L refs (.sepTail r b trail) es) :
      DataOf L refs (.sepTail r b trail) (cs ++ (ds ++ es))
  | node {name prop ix id q ds} (hr : refs[ix]? = some q) (h : DataOf L refs (.rule q) ds) :
      DataOf L refs (.rule (.node name prop (some ix) id)) (inNode prop ds)
  | optional_none {r id} : DataOf L refs (.rule (.optional r id)) []
  | optional_some {r id ds} (h : DataOf L refs (.rule r) ds) : DataOf L refs (.rule (.optional r id)) ds

end Verif.Spec
