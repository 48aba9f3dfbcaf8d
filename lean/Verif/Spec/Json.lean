import Verif.Model.Basic
import Verif.Spec.Data
/-
JSON texts (RFC 8259) without arrays and null: which text stands for which value.
-/
namespace Verif.Spec.Json

/-- JSON values that meta data can have.  Members are kept in order, with duplicates. -/
inductive Json where
  | bool (b : Bool)
  | num (x : F64)
  | str (s : Str)
  | obj (members : List (Str × Json))

/-- White space between JSON tokens. -/
def isWs (c : Char) : Bool := c == ' ' || c == '\n' || c == '\r' || c == '\t'

def skipWs : Str → Str
  | [] => []
  | c :: cs => if isWs c then skipWs cs else c :: cs

/-- `\"`, `\\`, `\/`, `\b`, `\f`, `\n`, `\r`, `\t`. -/
def unescape (c : Char) : Option Char :=
  if c = '"' then some '"' else if c = '\\' then some '\\' else if c = '/' then some '/'
  else if c = 'b' then some (Char.ofNat 8) else if c = 'f' then some (Char.ofNat 12)
  else if c = 'n' then some '\n' else if c = 'r' then some '\r' else if c = 't' then some '\t' else none

def hexDigit (c : Char) : Option Nat :=
  if '0' ≤ c ∧ c ≤ '9' then some (c.toNat - 48)
  else if 'a' ≤ c ∧ c ≤ 'f' then some (c.toNat - 87)
  else if 'A' ≤ c ∧ c ≤ 'F' then some (c.toNat - 55) else none

/-- Four hexadecimal digits. -/
def hex4 (a b c d : Char) : Option Nat :=
  match hexDigit a, hexDigit b, hexDigit c, hexDigit d with
  | some a, some b, some c, some d => some (((a * 16 + b) * 16 + c) * 16 + d)
  | _, _, _, _ => none

/-- The rest of a string after the opening quote, its value, and the text after the closing quote.
Strict JSON does not allow control characters in strings. -/
inductive StrTail (strict : Bool) : Str → Str → Str → Prop
  | done {r} : StrTail strict ('"' :: r) [] r
  | plain {c i s r} (h₁ : c ≠ '"') (h₂ : c ≠ '\\') (h₃ : strict = true → 32 ≤ c.toNat)
      (h : StrTail strict i s r) : StrTail strict (c :: i) (c :: s) r
  | escaped {e c i s r} (hc : unescape e = some c) (h : StrTail strict i s r) :
      StrTail strict ('\\' :: e :: i) (c :: s) r
  | unicode {a b c d n i s r} (hn : hex4 a b c d = some n) (h : ¬ (0xD800 ≤ n ∧ n < 0xE000))
      (hr : StrTail strict i s r) : StrTail strict ('\\' :: 'u' :: a :: b :: c :: d :: i) (Char.ofNat n :: s) r
  | pair {a b c d a' b' c' d' n m i s r} (hn : hex4 a b c d = some n) (h : 0xD800 ≤ n ∧ n < 0xDC00)
      (hm : hex4 a' b' c' d' = some m) (h' : 0xDC00 ≤ m ∧ m < 0xE000) (hr : StrTail strict i s r) :
      StrTail strict ('\\' :: 'u' :: a :: b :: c :: d :: '\\' :: 'u' :: a' :: b' :: c' :: d' :: i)
        (Char.ofNat (0x10000 + (n - 0xD800) * 0x400 + (m - 0xDC00)) :: s) r

/-- A whole string. -/
def IsString (strict : Bool) (text val : Str) : Prop := ∃ i, text = '"' :: i ∧ StrTail strict i val []

/-- A character that can be part of a number. -/
def isNumChar (c : Char) : Bool :=
  ('0' ≤ c ∧ c ≤ '9') || c == '-' || c == '+' || c == '.' || c == 'e' || c == 'E'

/-- `[ "." 1*DIGIT ]`, then `[ e [ "-" / "+" ] 1*DIGIT ]`. -/
def Digits (s : Str) : Prop := s ≠ [] ∧ ∀ c ∈ s, '0' ≤ c ∧ c ≤ '9'

/-- The grammar of numbers in RFC 8259, section 6. -/
def IsNumber (s : Str) : Prop :=
  ∃ minus int frac exp, s = minus ++ int ++ frac ++ exp ∧ (minus = [] ∨ minus = ['-']) ∧
    Digits int ∧ (int = ['0'] ∨ int.head? ≠ some '0') ∧
    (frac = [] ∨ ∃ ds, frac = '.' :: ds ∧ Digits ds) ∧
    (exp = [] ∨ ∃ e sign ds, exp = e :: (sign ++ ds) ∧ (e = 'e' ∨ e = 'E') ∧
      (sign = [] ∨ sign = ['+'] ∨ sign = ['-']) ∧ Digits ds)

mutual
/-- The text begins with a value; what comes after it.  `rd` reads the numbers. -/
inductive Value (strict : Bool) (rd : Str → F64) : Str → Json → Str → Prop
  | str {i s r} (h : StrTail strict i s r) : Value strict rd ('"' :: i) (.str s) r
  | true {r} : Value strict rd (c!"true" ++ r) (.bool Bool.true) r
  | false {r} : Value strict rd (c!"false" ++ r) (.bool Bool.false) r
  | num {lit r} (h : IsNumber lit) (hr : ∀ c, r.head? = some c → isNumChar c = Bool.false) :
      Value strict rd (lit ++ r) (.num (rd lit)) r
  | empty {i r} (h : skipWs i = '}' :: r) : Value strict rd ('{' :: i) (.obj []) r
  | obj {i ms r} (h : Members strict rd i ms r) : Value strict rd ('{' :: i) (.obj ms) r
/-- Members of an object, up to and including the closing brace. -/
inductive Members (strict : Bool) (rd : Str → F64) : Str → List (Str × Json) → Str → Prop
  | last {i i₁ i₂ i₃ i₄ k v r} (h₁ : skipWs i = '"' :: i₁) (h₂ : StrTail strict i₁ k i₂)
      (h₃ : skipWs i₂ = ':' :: i₃) (h₄ : Value strict rd (skipWs i₃) v i₄) (h₅ : skipWs i₄ = '}' :: r) :
      Members strict rd i [(k, v)] r
  | more {i i₁ i₂ i₃ i₄ i₅ k v ms r} (h₁ : skipWs i = '"' :: i₁) (h₂ : StrTail strict i₁ k i₂)
      (h₃ : skipWs i₂ = ':' :: i₃) (h₄ : Value strict rd (skipWs i₃) v i₄) (h₅ : skipWs i₄ = ',' :: i₅)
      (h₆ : Members strict rd i₅ ms r) : Members strict rd i ((k, v) :: ms) r
end

/-- The text is a JSON text with this value. -/
def IsJson (strict : Bool) (rd : Str → F64) (text : Str) (v : Json) : Prop :=
  ∃ r, Value strict rd (skipWs text) v r ∧ skipWs r = []

/-- The members that meta data stands for. -/
inductive Tree : List MetaData → List (Str × Json) → Prop
  | nil : Tree [] []
  | bool {n b ds ms} (h : Tree ds ms) : Tree (.bool n b :: ds) ((n, .bool b) :: ms)
  | f64 {n x ds ms} (h : Tree ds ms) : Tree (.f64 n x :: ds) ((n, .num x) :: ms)
  | string {n s ds ms} (h : Tree ds ms) : Tree (.string n s :: ds) ((n, .str s) :: ms)
  | node {n body sub ds ms} (hb : Tree body sub) (h : Tree ds ms) :
      Tree (.startNode n :: body ++ .endNode n :: ds) ((n, .obj sub) :: ms)

/-- What is needed of the way numbers are printed and read: finite numbers are printed as JSON
numbers, and read back. -/
structure LawfulFmt (fmt : F64 → Str) (rd : Str → F64) : Prop where
  number : ∀ x : F64, x.isFinite = true → IsNumber (fmt x)
  back : ∀ x : F64, x.isFinite = true → rd (fmt x) = x

/-- No control characters except those with an escape of their own. -/
def Plain (s : Str) : Prop := ∀ c ∈ s, 32 ≤ c.toNat ∨ c = '\n' ∨ c = '\r' ∨ c = '\t'

/-- The strings of an item. -/
def strings : MetaData → List Str
  | .startNode n => [n]
  | .endNode _ => []
  | .bool n _ => [n]
  | .f64 n _ => [n]
  | .string n s => [n, s]

/-- All numbers are finite. -/
def FiniteNumbers (ds : List MetaData) : Prop := ∀ n x, .f64 n x ∈ ds → x.isFinite = true

end Verif.Spec.Json
