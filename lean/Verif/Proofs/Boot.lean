import Verif.Model.Bootstrap
/-
The bootstrap rules with their references resolved.
-/
namespace Verif.Boot

/-- Rule 0, `multi_line_comment`. -/
def multiLineComment : Rule :=
  .sequence
    [.tag c!"/*" false false none 2,
     .untilAny c!"*/" true none 3,
     .repeat_ (.select
        [.sequence
          [.tag c!"*/" true false none 7,
           .tag c!"*" false false none 8,
           .untilAny c!"*/" true none 9] 6,
         .sequence
          [.node c!"multi_line_comment" none (some 0) 11,
           .untilAny c!"*/" true none 12] 10,
         .sequence
          [.tag c!"/" false false none 14,
           .untilAny c!"*/" true none 15] 13] 5) true 4,
     .tag c!"*/" false false none 16] 1

/-- Rule 1, `comment`. -/
def comment : Rule :=
  .select
    [.node c!"multi_line_comment" none (some 0) 1002,
     .sequence
      [.tag c!"//" false false none 1004,
       .untilAny c!"\n" true none 1005] 1003] 1001

/-- Rule 2, `string`. -/
def string : Rule :=
  .sequence
    [.tag c!"_" false false none 2002,
     .untilAnyOrWs bsSeps false (some c!"name") 2003,
     .tag c!":" false false none 2004,
     .whitespace true 2005,
     .text true (some c!"text") 2006] 2001

/-- Rule 3, `node`. -/
def node : Rule :=
  .sequence
    [.number (some c!"id") false 3002,
     .whitespace false 3003,
     .tag c!"_" true false none 3004,
     .tag c!"." true false none 3005,
     .untilAnyOrWs bsSeps false (some c!"name") 3006,
     .whitespace true 3007,
     .tag c!"=" false false none 3008,
     .whitespace true 3009,
     .node c!"rule" (some c!"rule") (some 21) 3010] 3001

/-- Rule 4, `set`. -/
def set : Rule :=
  .select
    [.text false (some c!"value") 4002,
     .sequence
      [.tag c!"_" false false none 4004,
       .untilAnyOrWs bsSeps false (some c!"ref") 4005] 4003] 4001

/-- Rule 5, `set_opt`. -/
def setOpt : Rule :=
  .select
    [.text true (some c!"value") 5002,
     .sequence
      [.tag c!"_" false false none 5004,
       .untilAnyOrWs bsSeps false (some c!"ref") 5005] 5003] 5001

/-- Rule 6, `opt`. -/
def opt : Rule :=
  .select
    [.tag c!"?" false false (some bsOpt) 6002,
     .tag c!"!" false true (some bsOpt) 6003] 6001

/-- Rule 7, `number`. -/
def number : Rule :=
  .sequence
    [.tag c!".$" false false none 7002,
     .optional (.tag c!"_" false false (some c!"underscore") 7004) 7003,
     .optional (.sequence
        [.tag c!":" false false none 7006,
         .node c!"set" (some bsProp) (some 4) 7007] 7005) 7004] 7001

/-- Rule 8, `text`. -/
def text : Rule :=
  .sequence
    [.tag c!".t" false false none 8002,
     .select
      [.tag c!"?" false false (some c!"allow_empty") 8004,
       .tag c!"!" false true (some c!"allow_empty") 8005] 8003,
     .optional (.sequence
        [.tag c!":" false false none 8008,
         .node c!"set" (some bsProp) (some 4) 8009] 8007) 8006] 8001

/-- Rule 9, `reference`. -/
def reference : Rule :=
  .sequence
    [.tag c!"_" true false none 9002,
     .tag c!"." true false none 9003,
     .untilAnyOrWs bsSeps false (some c!"name") 9004,
     .optional (.sequence
        [.tag c!":" false false none 9007,
         .node c!"set" (some bsProp) (some 4) 9008] 9006) 9005] 9001

/-- Rule 10, `sequence`. -/
def sequence : Rule :=
  .sequence
    [.tag c!"[" false false none 10002,
     .whitespace true 10003,
     .separateBy (.node c!"rule" (some c!"rule") (some 21) 10006) (.whitespace false 10005) false true 10004,
     .tag c!"]" false false none 10007] 10001

/-- Rule 11, `select`. -/
def select : Rule :=
  .sequence
    [.tag c!"{" false false none 11002,
     .whitespace true 11003,
     .separateBy (.node c!"rule" (some c!"rule") (some 21) 11006) (.whitespace false 11005) false true 11004,
     .tag c!"}" false false none 11007] 11001

/-- Rule 12, `separated_by`. -/
def separatedBy : Rule :=
  .sequence
    [.tag c!".s" false false none 12002,
     .node c!"opt" none (some 6) 12003,
     .optional (.tag c!"." false false (some c!"allow_trail") 12005) 12004,
     .tag c!"(" false false none 12006,
     .whitespace true 12007,
     .node c!"rule" (some c!"by") (some 21) 12008,
     .whitespace false 12009,
     .node c!"rule" (some c!"rule") (some 21) 12010,
     .whitespace true 12011,
     .tag c!")" false false none 12012] 12001

/-- Rule 13, `tag`. -/
def tag : Rule :=
  .sequence
    [.optional (.tag c!"!" false false (some c!"not") 13003) 13002,
     .node c!"set" (some c!"text") (some 4) 13004,
     .optional (.sequence
        [.tag c!":" false false none 13007,
         .optional (.tag c!"!" false false (some bsInv) 13009) 13008,
         .node c!"set" (some bsProp) (some 4) 13010] 13006) 13005] 13001

/-- Rule 14, `optional`. -/
def optional : Rule :=
  .sequence
    [.tag c!"?" false false none 14002,
     .node c!"rule" (some c!"rule") (some 21) 14003] 14001

/-- Rule 15, `not`. -/
def not_ : Rule :=
  .sequence
    [.tag c!"!" false false none 15002,
     .node c!"rule" (some c!"rule") (some 21) 15003] 15001

/-- Rule 16, `whitespace`. -/
def whitespace : Rule :=
  .sequence
    [.tag c!".w" false false none 16003,
     .node c!"opt" none (some 6) 16004] 16002

/-- Rule 17, `until_any_or_whitespace`. -/
def untilAnyOrWhitespace : Rule :=
  .sequence
    [.tag c!".." false false none 17002,
     .node c!"set_opt" (some bsAny) (some 5) 17003,
     .node c!"opt" none (some 6) 17004,
     .optional (.sequence
        [.tag c!":" false false none 17007,
         .node c!"set" (some bsProp) (some 4) 17008] 17006) 17005] 17001

/-- Rule 18, `until_any`. -/
def untilAny : Rule :=
  .sequence
    [.tag c!"..." false false none 18002,
     .node c!"set_opt" (some bsAny) (some 5) 18003,
     .node c!"opt" none (some 6) 18004,
     .optional (.sequence
        [.tag c!":" false false none 18007,
         .node c!"set" (some bsProp) (some 4) 18008] 18006) 18005] 18001

/-- Rule 19, `repeat`. -/
def repeat_ : Rule :=
  .sequence
    [.tag c!".r" false false none 19002,
     .node c!"opt" none (some 6) 19003,
     .tag c!"(" false false none 19004,
     .node c!"rule" (some c!"rule") (some 21) 19005,
     .tag c!")" false false none 19006] 19001

/-- Rule 20, `lines`. -/
def lines : Rule :=
  .sequence
    [.tag c!".l" false false none 20002,
     .optional (.tag c!"+" false false (some c!"indent") 20004) 20003,
     .tag c!"(" false false none 20005,
     .whitespace true 20006,
     .node c!"rule" (some c!"rule") (some 21) 20007,
     .whitespace true 20008,
     .tag c!")" false false none 20009] 20001

/-- Rule 21, `rule`. -/
def rule : Rule :=
  .select
    [.node c!"whitespace" (some c!"whitespace") (some 16) 21002,
     .node c!"until_any_or_whitespace" (some c!"until_any_or_whitespace") (some 17) 21003,
     .node c!"until_any" (some c!"until_any") (some 18) 21004,
     .node c!"lines" (some c!"lines") (some 20) 21005,
     .node c!"repeat" (some c!"repeat") (some 19) 21006,
     .node c!"number" (some c!"number") (some 7) 21007,
     .node c!"text" (some c!"text") (some 8) 21008,
     .node c!"reference" (some c!"reference") (some 9) 21009,
     .node c!"sequence" (some c!"sequence") (some 10) 21010,
     .node c!"select" (some c!"select") (some 11) 21011,
     .node c!"separated_by" (some c!"separated_by") (some 12) 21012,
     .node c!"tag" (some c!"tag") (some 13) 21013,
     .node c!"optional" (some c!"optional") (some 14) 21013,
     .node c!"not" (some c!"not") (some 15) 21014] 21001

/-- Rule 22, `document`. -/
def document : Rule :=
  .sequence
    [.lines (.sequence
        [.whitespace true 22004,
         .select
          [.node c!"string" (some c!"string") (some 2) 22006,
           .node c!"comment" none (some 1) 22007] 22005] 22003) false 22002,
     .lines (.sequence
        [.whitespace true 22010,
         .select
          [.node c!"node" (some c!"node") (some 3) 22012,
           .node c!"comment" none (some 1) 22013] 22011] 22009) false 22008,
     .whitespace true 22014] 22001

/-- All rules. -/
def refs : List Rule :=
  [multiLineComment, comment, string, node, set, setOpt, opt, number, text, reference, sequence, select, separatedBy, tag, optional, not_, whitespace, untilAnyOrWhitespace, untilAny, repeat_, lines, rule, document]

/-- Rule 20, `lines`, with `.l+` (as in src/bootstrap/rules.rs) or without it (as in
assets/self-syntax-1.0.txt). -/
def linesOf (plus : Bool) : Rule :=
  .sequence
    (.tag ('.' :: 'l' :: bif plus then [] else ['(']) false false none 20002 ::
     bif plus then
      [.optional (.tag c!"+" false false (some c!"indent") 20004) 20003,
       .tag c!"(" false false none 20005,
       .whitespace true 20006,
       .node c!"rule" (some c!"rule") (some 21) 20007,
       .whitespace true 20008,
       .tag c!")" false false none 20009]
     else
      [.whitespace true 20003,
       .node c!"rule" (some c!"rule") (some 21) 20004,
       .whitespace true 20005,
       .tag c!")" false false none 20006]) 20001

/-- All rules, with or without `.l+`. -/
def refsOf (plus : Bool) : List Rule :=
  [multiLineComment, comment, string, node, set, setOpt, opt, number, text, reference, sequence, select, separatedBy, tag, optional, not_, whitespace, untilAnyOrWhitespace, untilAny, repeat_, linesOf plus, rule, document]

theorem refsOf_true : refsOf true = refs := rfl

/-- These are the rules. -/
theorem rules_eq : bootstrapRules.rules = refs := rfl

/-- All names. -/
theorem names_eq : bootstrapRules.names =
    [c!"multi_line_comment", c!"comment", c!"string", c!"node", c!"set", c!"set_opt", c!"opt", c!"number", c!"text", c!"reference", c!"sequence", c!"select", c!"separated_by", c!"tag", c!"optional", c!"not", c!"whitespace", c!"until_any_or_whitespace", c!"until_any", c!"repeat", c!"lines", c!"rule", c!"document"] := rfl

end Verif.Boot
