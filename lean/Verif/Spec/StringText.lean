import Verif.Model.Basic
/-
What quoted strings say.
-/
namespace Verif.Spec

/-- The value of a hexadecimal digit. -/
def hexDigitVal (c : Char) : Option Nat := ("0123456789abcdef".toList.idxOf? c) <|> ("0123456789ABCDEF".toList.idxOf? c)

/-- The characters that a backslash and one more character stand for. -/
def simpleEscapes : List (Char × Char) :=
  [('"', '"'), ('\\', '\\'), ('/', '/'), ('b', '\x08'), ('f', '\x0c'), ('n', '\n'), ('r', '\r'), ('t', '\t')]

/-- `StrText t s`: between quotes, `t` stands for `s`. -/
inductive StrText : List Char → Str → Prop
  | nil : StrText [] []
  | plain {c t s} (hq : c ≠ '"') (hb : c ≠ '\\') (h : StrText t s) : StrText (c :: t) (c :: s)
  | escape {c x t s} (hc : (c, x) ∈ simpleEscapes) (h : StrText t s) : StrText ('\\' :: c :: t) (x :: s)
  | hex {a b c d : Char} {i j k l : Nat} {x : Char} {t s} (ha : hexDigitVal a = some i) (hb : hexDigitVal b = some j) (hc : hexDigitVal c = some k)
      (hd : hexDigitVal d = some l) (hx : x.toNat = i * 4096 + j * 256 + k * 16 + l) (h : StrText t s) :
      StrText ('\\' :: 'u' :: a :: b :: c :: d :: t) (x :: s)

/-- What may stand between quotes: any character after a backslash, but no quote and no backslash otherwise. -/
inductive QuotedText : List Char → Prop
  | nil : QuotedText []
  | plain {c t} (hq : c ≠ '"') (hb : c ≠ '\\') (h : QuotedText t) : QuotedText (c :: t)
  | escape {c t} (h : QuotedText t) : QuotedText ('\\' :: c :: t)

end Verif.Spec
