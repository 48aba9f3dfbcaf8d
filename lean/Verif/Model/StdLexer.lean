import Verif.Model.Lexer
/-
One concrete lexer.  It is not taken from /repo (the crate `read_token` is external); it satisfies
the contract `Lexer.Lawful` (`Verif.Proofs.StdLexer`) and reproduces the unit tests of /repo
(`Verif.Tests`).
-/
namespace Verif.Std

/-- Characters up to and including the closing quote; `esc` tells whether the previous character
was an unescaped backslash. -/
def scanStr : List Char → Bool → Option Nat
  | [], _ => none
  | _ :: cs, true => (scanStr cs false).map (· + 1)
  | c :: cs, false =>
    if c = '\\' then (scanStr cs true).map (· + 1)
    else if c = '"' then some 1
    else (scanStr cs false).map (· + 1)

def str : List Char → Option Nat
  | '"' :: cs => (scanStr cs false).map (· + 1)
  | _ => none

def hexVal (c : Char) : Option Nat :=
  let n := c.toNat
  if 48 ≤ n ∧ n ≤ 57 then some (n - 48)
  else if 97 ≤ n ∧ n ≤ 102 then some (n - 87)
  else if 65 ≤ n ∧ n ≤ 70 then some (n - 55)
  else none

/-- The character of a simple escape `\c`. -/
def unescape : Char → Option Char
  | '"' => some '"'
  | '\\' => some '\\'
  | '/' => some '/'
  | 'b' => some (Char.ofNat 8)
  | 'f' => some (Char.ofNat 12)
  | 'n' => some '\n'
  | 'r' => some '\r'
  | 't' => some '\t'
  | _ => none

def hex4 (a b c d : Char) : Option Char := do
  let a ← hexVal a
  let b ← hexVal b
  let c ← hexVal c
  let d ← hexVal d
  let n := ((a * 16 + b) * 16 + c) * 16 + d
  if n.isValidChar then some (Char.ofNat n) else none

/-- Decode the content of a quoted string; `off` is the position of the list in the source. -/
def decode : List Char → Nat → Except (Range × StrErr) Str
  | [], _ => .ok []
  | '\\' :: cs, off =>
    match cs with
    | 'u' :: a :: b :: c :: d :: cs' =>
      match hex4 a b c d with
      | some x => (decode cs' (off + 6)).map (x :: ·)
      | none => .error (⟨off, 6⟩, ⟨1⟩)
    | c :: cs' =>
      match unescape c with
      | some x => (decode cs' (off + 2)).map (x :: ·)
      | none => .error (⟨off, 2⟩, ⟨0⟩)
    | [] => .error (⟨off, 1⟩, ⟨0⟩)
  | c :: cs, off => (decode cs (off + 1)).map (c :: ·)

def parseStr (src : List Char) (n : Nat) : Except (Range × StrErr) Str :=
  decode ((src.drop 1).take (n - 2)) 1

def isDigit (c : Char) : Bool := 48 ≤ c.toNat && c.toNat ≤ 57

/-- Length of the digits (and underscores, if allowed) at the start. -/
def digits (u : Bool) (cs : List Char) : Nat :=
  (cs.takeWhile fun c => isDigit c || (u && c == '_')).length

/-- `-?` -/
def numSign : List Char → Nat
  | '-' :: _ => 1
  | _ => 0

/-- `(. digits)?` -/
def numFrac (u : Bool) : List Char → Nat
  | '.' :: cs => 1 + digits u cs
  | _ => 0

/-- `[+-]?` -/
def expSign : List Char → Nat
  | '+' :: _ => 1
  | '-' :: _ => 1
  | _ => 0

/-- `([eE] [+-]? digits)?` -/
def numExp : List Char → Nat
  | e :: cs =>
    if e = 'e' ∨ e = 'E' then
      let k := digits false (cs.drop (expSign cs))
      if k = 0 then 0 else 1 + expSign cs + k
    else 0
  | [] => 0

/-- `-? digits (. digits)? ([eE] [+-]? digits)?`, the first digits not empty. -/
def num (u : Bool) (src : List Char) : Option Nat :=
  let sign := numSign src
  if ((src.drop sign).head?.map isDigit).getD false then
    let n := sign + digits u (src.drop sign)
    let n := n + numFrac u (src.drop n)
    some (n + numExp (src.drop n))
  else none

/-- The double nearest to `a / b` (ties to even), without sign. -/
def ratBits (a b : Nat) : Nat :=
  if a = 0 then 0
  else
    -- `2^e ≤ a/b < 2^(e+2)`
    let e0 : Int := (Nat.log2 a : Int) - (Nat.log2 b : Int) - 1
    let e0 : Int := if e0 < -1022 then -1022 else e0
    -- scale so that the quotient has 53 or 54 bits (fewer if subnormal)
    let sh : Int := 52 - e0
    let (a, b) := if sh ≥ 0 then (a * 2 ^ sh.toNat, b) else (a, b * 2 ^ (-sh).toNat)
    let (b, e0) := if a / b ≥ 2 ^ 53 then (b * 2, e0 + 1) else (b, e0)
    let q := a / b
    let r := a % b
    let q := if 2 * r > b ∨ (2 * r = b ∧ q % 2 = 1) then q + 1 else q
    let (q, e0) := if q ≥ 2 ^ 53 then (q / 2, e0 + 1) else (q, e0)
    if e0 > 1023 then 0x7FF0000000000000
    else if q < 2 ^ 52 then q
    else (e0 + 1023).toNat * 2 ^ 52 + (q - 2 ^ 52)

def natOf (cs : List Char) : Nat :=
  cs.foldl (fun n c => if isDigit c then 10 * n + (c.toNat - 48) else n) 0

def parseNum (_ : Bool) (src : List Char) (n : Nat) : Except NumErr F64 :=
  let cs := (src.take n).filter (· ≠ '_')
  let (neg, cs) := match cs with
    | '-' :: cs => (true, cs)
    | cs => (false, cs)
  let ip := cs.takeWhile isDigit
  let cs := cs.drop ip.length
  let fp := match cs with
    | '.' :: cs => cs.takeWhile isDigit
    | _ => []
  let cs := cs.drop (match cs with | '.' :: _ => fp.length + 1 | _ => 0)
  let (eneg, ex) := match cs.drop 1 with
    | '-' :: cs => (true, natOf cs)
    | cs => (false, natOf cs)
  let m := natOf (ip ++ fp)
  let e : Int := (if eneg then -(ex : Int) else ex) - fp.length
  let bits := if e ≥ 0 then ratBits (m * 10 ^ e.toNat) 1 else ratBits m (10 ^ (-e).toNat)
  .ok ⟨BitVec.ofNat 64 (bits + if neg then 2 ^ 63 else 0)⟩

/-- Number of characters up to and including the last new line of the list. -/
def afterLastNl : List Char → Nat
  | [] => 0
  | c :: cs =>
    let k := afterLastNl cs
    if k = 0 then (if c = '\n' then 1 else 0) else k + 1

/-- The list ends in whitespace that contains a new line. -/
def trailingNl (cs : List Char) : Bool :=
  (cs.reverse.takeWhile isWs).contains '\n'

def lineNext (first : Bool) (item rest : List Char) : LineStep :=
  let ws := rest.takeWhile isWs
  if ws.length = rest.length then .done rest.length
  else if afterLastNl ws ≠ 0 then .call (afterLastNl ws)
  else if first then .call 0
  else if trailingNl item then .call 0
  else .fail 0

end Verif.Std

namespace Verif
/-- The concrete lexer. -/
def stdLexer : Lexer := ⟨Std.str, Std.parseStr, Std.num, Std.parseNum, Std.lineNext⟩
end Verif
