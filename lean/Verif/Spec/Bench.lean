import Verif.Model.Bench
import Verif.Spec.Desc
/-
What the rules in benches/bench.rs accept.
-/
namespace Verif.Spec

/-- One iteration of a benchmark ends in this way: with this data, or with a panic with this message. -/
def BenchEnds (L : Lexer) (E : ErrText) (rules text : Str) (r : Except Str (List Tok)) : Prop :=
  ∃ n, benchRun L E n rules text = .ok r

/-- The same for `bench_hello_data`. -/
def BenchDataEnds (L : Lexer) (E : ErrText) (rules text : Str) (r : Except Str (List Tok)) : Prop :=
  ∃ n, benchDataRun L E n rules text = .ok r

/-- The texts that rules like `1 say_hi = ["hi" .w? {"James":"james" "Peter":"peter"} "!"]` accept, for a list of names
with their properties, and the data they give.  If `tail` is set there is one more alternative, `.."!"!:"name"`. -/
inductive GreetText (names : List (Str × Str)) (tail : Bool) : Str → List Tok → Prop
  | name {w pre name prop post} (hw : ∀ c ∈ w, isWs c = true) (hn : names = pre ++ (name, prop) :: post)
      (hp : ∀ x ∈ pre, ¬ x.1 <+: name ++ c!"!") :
      GreetText names tail (c!"hi" ++ (w ++ (name ++ c!"!"))) [⟨⟨2 + w.length, name.length⟩, .bool prop true⟩]
  | other {w v} (hw : ∀ c ∈ w, isWs c = true) (ht : tail = true) (h0 : v ≠ []) (hv : ∀ c ∈ v, c ≠ '!' ∧ isWs c = false)
      (hn : ∀ x ∈ names, ¬ x.1 <+: v ++ c!"!") :
      GreetText names tail (c!"hi" ++ (w ++ (v ++ c!"!"))) [⟨⟨2 + w.length, v.length⟩, .string c!"name" v⟩]

/-- The number of the choice between the names. -/
def greetId (names : List (Str × Str)) (tail : Bool) : Nat := 1003 + names.length + if tail then 1 else 0

/-- What is wrong with a text that is not a greeting, and where.  A name of the list is told by its first character. -/
inductive GreetWrong (names : List (Str × Str)) (tail : Bool) : Str → RErr → Prop
  | noHi {text} (h : ¬ c!"hi" <+: text) : GreetWrong names tail text ⟨⟨0, 0⟩, .expectedTag c!"hi" 1001⟩
  | nothing {w} (hw : ∀ c ∈ w, isWs c = true) :
      GreetWrong names tail (c!"hi" ++ w) ⟨⟨2 + w.length, 0⟩, .expectedSomething (greetId names tail)⟩
  | noName {w c s} (hw : ∀ c ∈ w, isWs c = true) (ht : tail = false) (hc : isWs c = false)
      (hn : ∀ x ∈ names, x.1.head? ≠ some c) :
      GreetWrong names tail (c!"hi" ++ (w ++ c :: s)) ⟨⟨2 + w.length, 0⟩, .expectedSomething (greetId names tail)⟩
  | notName {w i name prop s} (hw : ∀ c ∈ w, isWs c = true) (ht : tail = false) (hn : names[i]? = some (name, prop))
      (h : s.head? = name.head?) (hs : ¬ name <+: s) :
      GreetWrong names tail (c!"hi" ++ (w ++ s)) ⟨⟨2 + w.length, 0⟩, .expectedTag name (1003 + i)⟩
  | noMark {w name prop s} (hw : ∀ c ∈ w, isWs c = true) (hn : (name, prop) ∈ names) (h : s.head? ≠ some '!') :
      GreetWrong names tail (c!"hi" ++ (w ++ (name ++ s)))
        ⟨⟨2 + w.length + name.length, 0⟩, .expectedTag c!"!" (greetId names tail + 1)⟩
  | more {w name prop s} (hw : ∀ c ∈ w, isWs c = true) (hn : (name, prop) ∈ names) (h : s ≠ []) :
      GreetWrong names tail (c!"hi" ++ (w ++ (name ++ '!' :: s))) ⟨⟨2 + w.length + (name.length + 1), 0⟩, .expectedEnd⟩
  | emptyName {w s} (hw : ∀ c ∈ w, isWs c = true) (ht : tail = true) :
      GreetWrong names tail (c!"hi" ++ (w ++ '!' :: s)) ⟨⟨2 + w.length, 0⟩, .expectedSomething (1003 + names.length)⟩
  | otherNoMark {w v s} (hw : ∀ c ∈ w, isWs c = true) (ht : tail = true) (h0 : v ≠ [])
      (hv : ∀ c ∈ v, c ≠ '!' ∧ isWs c = false) (hn : ∀ x ∈ names, ¬ x.1 <+: v ++ s)
      (h : ∀ c, s.head? = some c → isWs c = true) :
      GreetWrong names tail (c!"hi" ++ (w ++ (v ++ s)))
        ⟨⟨2 + w.length + v.length, 0⟩, .expectedTag c!"!" (greetId names tail + 1)⟩
  | otherMore {w v s} (hw : ∀ c ∈ w, isWs c = true) (ht : tail = true) (h0 : v ≠ [])
      (hv : ∀ c ∈ v, c ≠ '!' ∧ isWs c = false) (hn : ∀ x ∈ names, ¬ x.1 <+: v ++ '!' :: s) (h : s ≠ []) :
      GreetWrong names tail (c!"hi" ++ (w ++ (v ++ '!' :: s))) ⟨⟨2 + w.length + (v.length + 1), 0⟩, .expectedEnd⟩

/-- The names of the benchmarks. -/
def benchNames : List (Str × Str) := [(c!"James", c!"james"), (c!"Peter", c!"peter"), (c!"Carl", c!"carl"),
  (c!"Nina", c!"nina"), (c!"Monkey", c!"monkey")]

/-- The rule for one name. -/
def greetTag (x : Str × Str) : Desc := .tag none (.value x.1) none (some (.value x.2))

/-- The rules for these names, as a document. -/
def greetNodes (names : List (Str × Str)) (tail : Bool) : List (Str × F64 × Str × Desc) := [
  (c!"1", ⟨0x3ff0000000000000⟩, c!"say_hi",
    .sequence [.tag none (.value c!"hi") none none, .whitespace true,
      .select (names.map greetTag ++
        if tail then [.untilAnyOrWs (.value c!"!") (some false) (some (.value c!"name"))] else []),
      .tag none (.value c!"!") none none]),
  (c!"2", ⟨0x4000000000000000⟩, c!"document", .reference c!"say_hi" none)]

/-- A word: not empty and without space. -/
def Word (word : Str) : Prop := word ≠ [] ∧ ∀ c ∈ word, isWs c = false

/-- Space: not empty. -/
def Gap (w : Str) : Prop := w ≠ [] ∧ ∀ c ∈ w, isWs c = true

/-- The texts that the rules of `bench_deep_string` accept, from the place `off` on, and their data: words with space
between them, then `foo`.  Only the first of the words can begin with `foo`.  `k` is the number of words before `foo`. -/
inductive DeepText : (k off : Nat) → Str → List Tok → Prop
  | last {off word w} (h : Word word) (hw : Gap w) :
      DeepText 1 off (word ++ (w ++ c!"foo")) [⟨⟨off, word.length⟩, .string c!"foo" word⟩]
  | more {k off word w rest ts} (h : Word word) (hw : Gap w) (hf : ¬ c!"foo" <+: rest)
      (hr : DeepText k (off + (word.length + w.length)) rest ts) :
      DeepText (k + 1) off (word ++ (w ++ rest)) (⟨⟨off, word.length⟩, .string c!"foo" word⟩ :: ts)

/-- What is wrong with a text that the rules of `bench_deep_string` do not accept, from the place `off` on: there is no
word, no space after a word, or something after `foo`. -/
inductive DeepWrong : (off : Nat) → Str → RErr → Prop
  | noWord {off s} (h : ∀ c, s.head? = some c → isWs c = true) : DeepWrong off s ⟨⟨off, 0⟩, .expectedSomething 1001⟩
  | noGap {off word} (h : Word word) : DeepWrong off word ⟨⟨off + word.length, 0⟩, .expectedWhitespace 1002⟩
  | after {off word w s} (h : Word word) (hw : Gap w) (hs : s ≠ []) :
      DeepWrong off (word ++ (w ++ (c!"foo" ++ s))) ⟨⟨off + (word.length + (w.length + 3)), 0⟩, .expectedEnd⟩
  | next {off word w rest e} (h : Word word) (hw : Gap w) (hf : ¬ c!"foo" <+: rest)
      (hr : ∀ c, rest.head? = some c → isWs c = false) (he : DeepWrong (off + (word.length + w.length)) rest e) :
      DeepWrong off (word ++ (w ++ rest)) e

/-- The rules of `bench_deep_string`, as a document. -/
def deepNodes : List (Str × F64 × Str × Desc) := [
  (c!"1", ⟨0x3ff0000000000000⟩, c!"foo",
    .sequence [.untilAnyOrWs (.value c!" ") (some false) (some (.value c!"foo")), .whitespace false,
      .select [.tag none (.value c!"foo") none none, .reference c!"foo" none]]),
  (c!"2", ⟨0x4000000000000000⟩, c!"document", .reference c!"foo" none)]

end Verif.Spec
