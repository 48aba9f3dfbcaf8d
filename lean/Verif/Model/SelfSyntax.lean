import Verif.Model.Basic
/-
The text assets/self-syntax.txt, in which the meta language describes itself.
-/
namespace Verif

/-- The lines of the comment at the beginning, without its delimiters -- assets/self-syntax.txt:1-111. -/
def selfComment : List Str := [
  c!" PISTON-META syntax\n",
  c!"\n",
  c!"Piston-Meta is a high level meta language for transforming text into a tree.\n",
  c!"It is designed for rapid prototyping and infrastructure in game engines.\n",
  c!"Developed and maintained as part of the Piston project.\n",
  c!"\n",
  c!"Strings:\n",
  c!"\n",
  c!"    You can reuse strings in the rules.\n",
  c!"    All strings start with `_`.\n",
  c!"\n",
  c!"Built-in rules:\n",
  c!"\n",
  c!"    All built-in rules start with `.`.\n",
  c!"\n",
  c!"    .w      Whitespace.\n",
  c!"            `.w?` is optional and `.w!` is required.\n",
  c!"\n",
  c!"    .t      Text string.\n",
  c!"            `.t?` allows empty string and `.t!` disallow empty string.\n",
  c!"            `.t?:\"message\"` generates a meta string with name \"message\".\n",
  c!"\n",
  c!"    .$      Floating number of double precision (64 bit).\n",
  c!"            `.$_` allows underscore `_` as visible seperator, eg. `1_000`\n",
  c!"            `.$:\"message\"` generates a meta number with name \"message\".\n",
  c!"\n",
  c!"    .._any   Reads until whitespace or any of the characters in the string.\n",
  c!"            `.._any?` allows empty\n",
  c!"\n",
  c!"    ..._any  Reads until any of the characters in the string.\n",
  c!"             `..._any?` allows empty and `..._any!` disallows empty.\n",
  c!"\n",
  c!"Tokens:\n",
  c!"\n",
  c!"    A token is a sequence of characters defined by a string.\n",
  c!"    Generates boolean values `true` or `false`.\n",
  c!"\n",
  c!"    \"hello\"     Expects \"hello\".\n",
  c!"                `\"hello\":\"message\"` generates `true` with name \"message\".\n",
  c!"                `\"hello\":!\"message\"` generates `false` with name \"message\".\n",
  c!"\n",
  c!"    !\"hello\"    Expects anything but \"hello\".\n",
  c!"                `!\"hello\":\"message\"` generates `true` with name \"message\".\n",
  c!"                `!\"hello\":!\"message\"` generates `false` with name \"message\".\n",
  c!"\n",
  c!"Composition rules:\n",
  c!"\n",
  c!"    Rules are separated using whitespace, e.g. `[a b c]` or `{a b c}`.\n",
  c!"\n",
  c!"    [...]       Parses a sequence of rules.\n",
  c!"\n",
  c!"    {...}       Tries the first rule, then the second if the first fails etc.\n",
  c!"\n",
  c!"    ?           Parses a rule optionally.\n",
  c!"                `?$:\"value\"` generates a number with name \"value\", if any.\n",
  c!"\n",
  c!"    !           Fails if rule gets parsed.\n",
  c!"\n",
  c!"    .s          Separates a rule by another rule.\n",
  c!"                `.s?.(\",\" $)`   Allows zero repetitions, allows trailing.\n",
  c!"                `.s?(\",\" $)`    Allows zero repetitions, no trailing.\n",
  c!"                `.s!.(\",\" $)`   At least one repetition, allows trailing.\n",
  c!"                `.s!(\",\" $)`    At least one repetition, no trailing.\n",
  c!"\n",
  c!"    .r          Repeats a rule until it fails parsing.\n",
  c!"                `.r?(\"ha\")`     Allows zero repetitions.\n",
  c!"                `.r!(\"ha\")`     At least one repetition.\n",
  c!"\n",
  c!"    .l          Separates a rule by one or more new lines.\n",
  c!"                Handles edge cases nicely for the intended use.\n",
  c!"                `.l($)`         List of numbers, one per line.\n",
  c!"\n",
  c!"Generating meta data:\n",
  c!"\n",
  c!"    The following parses the sentences \"hi James!\" and \"hi Peter!\".\n",
  c!"\n",
  c!"        1 say_hi = [\"hi\" .w! {\"James\" \"Peter\"} \"!\"]\n",
  c!"        2 document = say_hi\n",
  c!"\n",
  c!"    To generate data, we need to assign `say_hi` to a message.\n",
  c!"\n",
  c!"        1 say_hi = [\"hi\" .w! {\"James\":\"james\" \"Peter\":\"peter\"}]\n",
  c!"        2 document = say_hi:\"say_hi\"\n",
  c!"\n",
  c!"    The sentence \"hi James!\" then generates the equivalent JSON:\n",
  c!"\n",
  c!"        {\n",
  c!"            \"say_hi\": {\n",
  c!"                \"james\": true\n",
  c!"            }\n",
  c!"        }\n",
  c!"\n",
  c!"    By removing `:\"say_hi\"`, you can \"lift\" the sub data up one level:\n",
  c!"\n",
  c!"        {\n",
  c!"            \"james\":true\n",
  c!"        }\n",
  c!"\n",
  c!"    Numbers in front of the rules are used to improve error reporting.\n",
  c!"    For example, the following was reported by the 1st rule and 6th sub rule.\n",
  c!"\n",
  c!"        Error #1006, Expected: `!`\n",
  c!"        1,9: hi James\n",
  c!"        1,9:         ^\n",
  c!"\n",
  c!"    The last node is used to parse the entire document.\n",
  c!"\n",
  c!"Each sub rule in the node is assigned a debug id used in error reporting.\n",
  c!"The debug ids for a sub rule starts with `1000n` where `n` is the id.\n",
  c!"\n"]

/-- The strings -- assets/self-syntax.txt:113-117. -/
def selfStrings : List Str := [
  c! r#"_opt: "optional"
"#,
  c! r#"_inv: "inverted"
"#,
  c! r#"_prop: "property"
"#,
  c! r#"_any: "any_characters"
"#,
  c! r#"_seps: "[]{}():.!?\""
"#]

/-- The nodes -- assets/self-syntax.txt:118-164. -/
def selfNodes : List Str := [
  c! r#"0 multi_line_comment = ["/*" ..."*/"? .r?({
    [!"*/" "*" ..."*/"?]
    [multi_line_comment ..."*/"?]
    ["/" ..."*/"?]
}) "*/"]
"#,
  c! r#"1 comment = {multi_line_comment ["//" ..."\n"?]}
"#,
  c! r#"2 string = ["_" .._seps!:"name" ":" .w? .t?:"text"]
"#,
  c! r#"3 node = [.$:"id" .w! !"_" !"." .._seps!:"name" .w? "=" .w? rule:"rule"]
"#,
  c! r#"4 set = {.t!:"value" ["_" .._seps!:"ref"]}
"#,
  c! r#"5 set_opt = {.t?:"value" ["_" .._seps!:"ref"]}
"#,
  c! r#"6 opt = {"?":_opt "!":!_opt}
"#,
  c! r#"7 number = [".$" ?"_":"underscore" ?[":" set:_prop]]
"#,
  c! r#"8 text = [".t" {"?":"allow_empty" "!":!"allow_empty"} ?[":" set:_prop]]
"#,
  c! r#"9 reference = [!"_" !"." .._seps!:"name" ?[":" set:_prop]]
"#,
  c! r#"10 sequence = ["[" .w? .s!.(.w! rule:"rule") "]"]
"#,
  c! r#"11 select = ["{" .w? .s!.(.w! rule:"rule") "}"]
"#,
  c! r#"12 separated_by = [".s" opt ?".":"allow_trail"
  "(" .w? rule:"by" .w! rule:"rule" .w? ")"]
"#,
  c! r#"13 tag = [?"!":"not" set:"text" ?[":" ?"!":_inv set:_prop]]
"#,
  c! r#"14 optional = ["?" rule:"rule"]
"#,
  c! r#"15 not = ["!" rule:"rule"]
"#,
  c! r#"16 whitespace = [".w" opt]
"#,
  c! r#"17 until_any_or_whitespace = [".." set_opt:_any opt ?[":" set:_prop]]
"#,
  c! r#"18 until_any = ["..." set_opt:_any opt ?[":" set:_prop]]
"#,
  c! r#"19 repeat = [".r" opt "(" rule:"rule" ")"]
"#,
  c! r#"20 lines = [".l" ?"+":"indent" "(" .w? rule:"rule" .w? ")"]
"#,
  c! r#"21 rule = {
  whitespace:"whitespace"
  until_any_or_whitespace:"until_any_or_whitespace"
  until_any:"until_any"
  lines:"lines"
  repeat:"repeat"
  number:"number"
  text:"text"
  reference:"reference"
  sequence:"sequence"
  select:"select"
  separated_by:"separated_by"
  tag:"tag"
  optional:"optional"
  not:"not"
}
"#,
  c! r#"22 document = [
    .l([.w? {string:"string" comment}])
    .l([.w? {node:"node" comment}])
    .w?
]
"#]

/-- assets/self-syntax.txt. -/
def selfText : Str :=
  c!"/*" ++ selfComment.flatten ++ c!"*/\n\n" ++ selfStrings.flatten ++ selfNodes.flatten

end Verif
