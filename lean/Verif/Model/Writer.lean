import Verif.Model.Json
import Verif.Model.Syntax
/-
Writing to a writer that may report errors: `json::write`, src/json.rs, and `ParseErrorHandler`,
src/parse_error_handler.rs, statement by statement; `load_syntax_data` with files, src/lib.rs:247-266.

A writer is what `write_all` does to it.  `write!` gives the text to `write_all` in pieces; how it
is cut may differ between two places of the code and two versions of the compiler, so it is a
parameter (`Cut`): the first argument is the line of the statement.
-/
namespace Verif

/-- A writer with states `σ` and errors `ε`: what `write_all` returns and the state behind it. -/
structure Writer (σ ε : Type) where
  put : σ → Str → Except ε Unit × σ

/-- How the text of a `write!` is cut into pieces: nothing is lost. -/
structure Cut where
  cut : Nat → Str → List Str
  whole : ∀ line s, (cut line s).flatten = s

/-- The end of a function that writes: it returns `Ok(())`, an error, or panics. -/
inductive Wrote (σ ε : Type) where
  | ok (s : σ)
  | err (e : ε) (s : σ)
  | panic (s : σ)
deriving DecidableEq

namespace Wrote
/-- `?` and `;`. -/
def andThen {σ ε : Type} (x : Wrote σ ε) (f : σ → Wrote σ ε) : Wrote σ ε :=
  match x with
  | .ok s => f s
  | .err e s => .err e s
  | .panic s => .panic s

/-- `.unwrap()`. -/
def unwrap {σ ε : Type} : Wrote σ ε → Wrote σ ε
  | .ok s => .ok s
  | .err _ s => .panic s
  | .panic s => .panic s
end Wrote

section
variable {σ ε : Type} (W : Writer σ ε) (C : Cut)

/-- `write_all` for one piece after the other, until the first error. -/
def putAll : List Str → σ → Wrote σ ε
  | [], s => .ok s
  | p :: ps, s =>
    match W.put s p with
    | (.ok (), s) => putAll ps s
    | (.error e, s) => .err e s

/-- `write!(w, ..)` at a line of the source. -/
def writeTo (line : Nat) (text : Str) (s : σ) : Wrote σ ε := putAll W (C.cut line text) s

/-- `for .. { .. }` with a body that writes. -/
def forTo {α : Type} (f : α → σ → Wrote σ ε) : List α → σ → Wrote σ ε
  | [], s => .ok s
  | a :: as, s => (f a s).andThen (forTo f as)

/-- `a - b` on `usize` or `u32`. -/
def subTo (a b : Nat) (s : σ) (f : Nat → Wrote σ ε) : Wrote σ ε := if b ≤ a then f (a - b) else .panic s

/-- One character of a JSON string -- src/json.rs:76-88. -/
def charTo (c : Char) (s : σ) : Wrote σ ε :=
  if c = '\\' then writeTo W C 77 ['\\', '\\'] s
  else if c = '"' then writeTo W C 79 ['\\', '"'] s
  else if c = '\n' then writeTo W C 81 ['\\', 'n'] s
  else if c = '\r' then writeTo W C 83 ['\\', 'r'] s
  else if c = '\t' then writeTo W C 85 ['\\', 't'] s
  else writeTo W C 87 [c] s

/-- `write_string` -- src/json.rs:71-92. -/
def stringTo (val : Str) (s : σ) : Wrote σ ε :=
  (writeTo W C 74 ['"'] s).andThen fun s =>
  (forTo (charTo W C) val s).andThen fun s =>
  writeTo W C 90 ['"'] s

/-- The `match` in `write` without the changes of `first` and `indent` -- src/json.rs:43-63. -/
def itemTo (fmt : F64 → Str) (d : MetaData) (s : σ) : Wrote σ ε :=
  match d with
  | .startNode name => (stringTo W C name s).andThen fun s => writeTo W C 45 [':', '{'] s
  | .endNode _ => writeTo W C 49 ['}'] s
  | .bool name val =>
    (stringTo W C name s).andThen fun s => writeTo W C 53 (':' :: (if val then c!"true" else c!"false")) s
  | .f64 name val => (stringTo W C name s).andThen fun s => writeTo W C 57 (':' :: fmt val) s
  | .string name val =>
    (stringTo W C name s).andThen fun s =>
    (writeTo W C 61 [':'] s).andThen fun s =>
    stringTo W C val s

/-- The loop of `write` and what follows it -- src/json.rs:25-67: `started` is `i != 0`. -/
def jsonLoopTo (fmt : F64 → Str) : List MetaData → (started first : Bool) → (indent : Nat) → σ → Wrote σ ε
  | [], _, _, _, s => writeTo W C 66 ['\n'] s
  | d :: ds, started, first, indent, s =>
    subTo indent (if d.isEnd then 1 else 0) s fun indent =>
    (if !first && !d.isEnd then writeTo W C 33 [',', '\n'] s
      else if started then writeTo W C 35 ['\n'] s
      else .ok s).andThen fun s =>
    (forTo (fun _ => writeTo W C 39 [' ']) (List.range indent) s).andThen fun s =>
    (itemTo W C fmt d s).andThen fun s =>
    if d.isStart then
      if indent + 1 < 2 ^ 32 then jsonLoopTo fmt ds true true (indent + 1) s else .panic s
    else jsonLoopTo fmt ds true false indent s

/-- `write` -- src/json.rs:9-68. -/
def jsonTo (fmt : F64 → Str) (data : List Tok) (s : σ) : Wrote σ ε :=
  let ds := data.map (·.data)
  let starts := ds.countP (·.isStart) % 2 ^ 32
  let ends := ds.countP (·.isEnd) % 2 ^ 32
  jsonLoopTo W C fmt ds false true (max starts ends - min starts ends) s

/-- `print` -- src/json.rs:95-99; the writer is the standard output. -/
def printTo (fmt : F64 → Str) (data : List Tok) (s : σ) : Wrote σ ε := (jsonTo W C fmt data s).unwrap

/-- One character of the line of the pointer -- src/parse_error_handler.rs:61-68, 135-142. -/
def padTo (line : Nat) (c : Char) (s : σ) : Wrote σ ε :=
  if c = '\t' then writeTo W C line ['\t'] s else writeTo W C (line + 3) [' '] s

/-- The excerpt of one line -- src/parse_error_handler.rs:49-75 (`base` is 48) and 123-149 (`base`
is 122): what follows is given the new value of `printed_pointer`. -/
def excerptTo (base : Nat) (range : Range) (i : Nat) (r : Range) (text : Str) (printed : Bool) (s : σ)
    (f : Bool → σ → Wrote σ ε) : Wrote σ ε :=
  match range.endsIntersect r with
  | none => f printed s
  | some x =>
    if x.offset ≥ r.offset then
      subTo x.offset r.offset s fun j =>
      (fun (g : Nat → Wrote σ ε) => if j > 75 then subTo j 50 s g else g 0) fun sk =>
      let e := min (sk + 100) r.length
      let place := dec (i + 1) ++ [','] ++ dec (j + 1) ++ c!": "
      (writeTo W C (base + 6) place s).andThen fun s =>
      subTo e sk s fun n =>
      (forTo (fun c => writeTo W C (base + 8) [c]) ((text.drop sk).take n) s).andThen fun s =>
      (writeTo W C (base + 10) ['\n'] s).andThen fun s =>
      if printed then f true s
      else
        (writeTo W C (base + 12) place s).andThen fun s =>
        subTo j sk s fun m =>
        (forTo (padTo W C (base + 16)) ((text.drop sk).take m) s).andThen fun s =>
        (writeTo W C (base + 23) c!"^\n" s).andThen fun s =>
        f true s
    else f printed s

/-- The loop over the lines -- src/parse_error_handler.rs:47-77, 121-151. -/
def excerptsTo (base : Nat) (range : Range) : (i : Nat) → List (Range × Str) → (printed : Bool) → σ → Wrote σ ε
  | _, [], _, s => .ok s
  | i, (r, text) :: ls, printed, s =>
    excerptTo W C base range i r text printed s fun printed s => excerptsTo base range (i + 1) ls printed s

/-- `ParseErrorHandler::write_msg` -- src/parse_error_handler.rs:40-78. -/
def msgTo (lines : List (Range × Str)) (range : Range) (msg : Str) (s : σ) : Wrote σ ε :=
  (writeTo W C 46 (msg ++ ['\n']) s).andThen fun s =>
  excerptsTo W C 48 range 0 lines false s

/-- Lines with their numbers -- src/parse_error_handler.rs:115-118. -/
def plainTo : Nat → List (Range × Str) → σ → Wrote σ ε
  | _, [], s => .ok s
  | i, (_, text) :: ls, s =>
    (writeTo W C 117 (dec (i + 1) ++ c!": " ++ text ++ ['\n']) s).andThen fun s => plainTo (i + 1) ls s

/-- The lines before the error -- src/parse_error_handler.rs:104-120. -/
def beforeTo (lines : List (Range × Str)) (range : Range) (err : ParseError) (s : σ) : Wrote σ ε :=
  match err with
  | .expectedTag _ _ =>
    match firstLine range lines with
    | none => .ok s
    | some n =>
      if n ≤ lines.length then
        let prev := prevLine lines n 0
        if prev ≤ n then plainTo W C prev ((lines.take n).drop prev) s
        else .panic s
      else .panic s
  | _ => .ok s

/-- `ParseErrorHandler::write` -- src/parse_error_handler.rs:81-152. -/
def errTo (E : ErrText) (lines : List (Range × Str)) (e : RErr) (s : σ) : Wrote σ ε :=
  (writeTo W C 103 (c!"Error " ++ e.err.text E ++ ['\n']) s).andThen fun s =>
  (beforeTo W C lines e.range e.err s).andThen fun s =>
  excerptsTo W C 122 e.range 0 lines false s

/-- `ParseErrorHandler::error` -- src/parse_error_handler.rs:155-157; the writer is the standard
error output. -/
def errorTo (E : ErrText) (lines : List (Range × Str)) (e : RErr) (s : σ) : Wrote σ ε :=
  (errTo W C E lines e s).unwrap

/-- The end of a function that gives a value or panics; `σ` is the state of the standard error
output. -/
inductive Ended (σ α : Type) where
  | ok (a : α) (s : σ)
  | panic (s : σ)
  | timeout
deriving DecidableEq

/-- `stderr_unwrap` -- src/parse_error_handler.rs:7-15. -/
def stderrUnwrap {α : Type} (E : ErrText) (source : Str) (res : Except RErr α) (s : σ) : Ended σ α :=
  match res with
  | .error e =>
    match errorTo W C E (handlerLines source) e s with
    | .ok s => .panic s
    | .err _ s => .panic s
    | .panic s => .panic s
  | .ok val => .ok val s

/-- `load_syntax_data` with files -- src/lib.rs:247-266: `fs` is the text of a file, or `none` if it
cannot be opened or is not UTF-8.  The second result are the files opened, the last one first. -/
def loadFiles (L : Lexer) (E : ErrText) (n : Nat) {Path : Type} (fs : Path → Option Str)
    (syntaxPath dataPath : Path) (s : σ) : Ended σ (List Tok) × List Path :=
  match fs syntaxPath with
  | none => (.panic s, [syntaxPath])
  | some t =>
    match readSyntax L n t with
    | .timeout => (.timeout, [syntaxPath])
    | .panic => (.panic s, [syntaxPath])
    | .ok res =>
      match stderrUnwrap W C E t res s with
      | .timeout => (.timeout, [syntaxPath])
      | .panic s => (.panic s, [syntaxPath])
      | .ok rules s =>
        match fs dataPath with
        | none => (.panic s, [dataPath, syntaxPath])
        | some d =>
          match parse L n rules d [] with
          | .timeout => (.timeout, [dataPath, syntaxPath])
          | .panic => (.panic s, [dataPath, syntaxPath])
          | .ok tokens => (stderrUnwrap W C E d (.ok tokens) s, [dataPath, syntaxPath])
          | .err e _ => (stderrUnwrap W C E d (.error e) s, [dataPath, syntaxPath])

end
end Verif
