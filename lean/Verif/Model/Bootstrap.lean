import Verif.Model.Refs
/-
`bootstrap::rules`, src/bootstrap/rules.rs: the rules that read the meta language.
-/
namespace Verif

/-- src/bootstrap/rules.rs:24-28. -/
def bsOpt : Str := c!"optional"
/-- src/bootstrap/rules.rs:24-28. -/
def bsInv : Str := c!"inverted"
/-- src/bootstrap/rules.rs:24-28. -/
def bsProp : Str := c!"property"
/-- src/bootstrap/rules.rs:24-28. -/
def bsAny : Str := c!"any_characters"
/-- src/bootstrap/rules.rs:24-28. -/
def bsSeps : Str := c!"[]{}():.!?\""

/-- src/bootstrap/rules.rs:35-128. -/
def bsMultiLineCommentRule : Rule :=
  .sequence
    [.tag c!"/*" false false none 2,
     .untilAny c!"*/" true none 3,
     .repeat_ (.select
        [.sequence
          [.tag c!"*/" true false none 7,
           .tag c!"*" false false none 8,
           .untilAny c!"*/" true none 9] 6,
         .sequence
          [.node c!"multi_line_comment" none none 11,
           .untilAny c!"*/" true none 12] 10,
         .sequence
          [.tag c!"/" false false none 14,
           .untilAny c!"*/" true none 15] 13] 5) true 4,
     .tag c!"*/" false false none 16] 1

/-- src/bootstrap/rules.rs:131-159. -/
def bsCommentRule : Rule :=
  .select
    [.node c!"multi_line_comment" none none 1002,
     .sequence
      [.tag c!"//" false false none 1004,
       .untilAny c!"\n" true none 1005] 1003] 1001

/-- src/bootstrap/rules.rs:162-195. -/
def bsStringRule : Rule :=
  .sequence
    [.tag c!"_" false false none 2002,
     .untilAnyOrWs bsSeps false (some c!"name") 2003,
     .tag c!":" false false none 2004,
     .whitespace true 2005,
     .text true (some c!"text") 2006] 2001

/-- src/bootstrap/rules.rs:198-252. -/
def bsNodeRule : Rule :=
  .sequence
    [.number (some c!"id") false 3002,
     .whitespace false 3003,
     .tag c!"_" true false none 3004,
     .tag c!"." true false none 3005,
     .untilAnyOrWs bsSeps false (some c!"name") 3006,
     .whitespace true 3007,
     .tag c!"=" false false none 3008,
     .whitespace true 3009,
     .node c!"rule" (some c!"rule") none 3010] 3001

/-- src/bootstrap/rules.rs:255-282. -/
def bsSetRule : Rule :=
  .select
    [.text false (some c!"value") 4002,
     .sequence
      [.tag c!"_" false false none 4004,
       .untilAnyOrWs bsSeps false (some c!"ref") 4005] 4003] 4001

/-- src/bootstrap/rules.rs:285-312. -/
def bsSetOptRule : Rule :=
  .select
    [.text true (some c!"value") 5002,
     .sequence
      [.tag c!"_" false false none 5004,
       .untilAnyOrWs bsSeps false (some c!"ref") 5005] 5003] 5001

/-- src/bootstrap/rules.rs:315-333. -/
def bsOptRule : Rule :=
  .select
    [.tag c!"?" false false (some bsOpt) 6002,
     .tag c!"!" false true (some bsOpt) 6003] 6001

/-- src/bootstrap/rules.rs:336-378. -/
def bsNumberRule : Rule :=
  .sequence
    [.tag c!".$" false false none 7002,
     .optional (.tag c!"_" false false (some c!"underscore") 7004) 7003,
     .optional (.sequence
        [.tag c!":" false false none 7006,
         .node c!"set" (some bsProp) none 7007] 7005) 7004] 7001

/-- src/bootstrap/rules.rs:381-432. -/
def bsTextRule : Rule :=
  .sequence
    [.tag c!".t" false false none 8002,
     .select
      [.tag c!"?" false false (some c!"allow_empty") 8004,
       .tag c!"!" false true (some c!"allow_empty") 8005] 8003,
     .optional (.sequence
        [.tag c!":" false false none 8008,
         .node c!"set" (some bsProp) none 8009] 8007) 8006] 8001

/-- src/bootstrap/rules.rs:435-480. -/
def bsReferenceRule : Rule :=
  .sequence
    [.tag c!"_" true false none 9002,
     .tag c!"." true false none 9003,
     .untilAnyOrWs bsSeps false (some c!"name") 9004,
     .optional (.sequence
        [.tag c!":" false false none 9007,
         .node c!"set" (some bsProp) none 9008] 9006) 9005] 9001

/-- src/bootstrap/rules.rs:483-520. -/
def bsSequenceRule : Rule :=
  .sequence
    [.tag c!"[" false false none 10002,
     .whitespace true 10003,
     .separateBy (.node c!"rule" (some c!"rule") none 10006) (.whitespace false 10005) false true 10004,
     .tag c!"]" false false none 10007] 10001

/-- src/bootstrap/rules.rs:523-560. -/
def bsSelectRule : Rule :=
  .sequence
    [.tag c!"{" false false none 11002,
     .whitespace true 11003,
     .separateBy (.node c!"rule" (some c!"rule") none 11006) (.whitespace false 11005) false true 11004,
     .tag c!"}" false false none 11007] 11001

/-- src/bootstrap/rules.rs:564-629. -/
def bsSeparatedByRule : Rule :=
  .sequence
    [.tag c!".s" false false none 12002,
     .node c!"opt" none none 12003,
     .optional (.tag c!"." false false (some c!"allow_trail") 12005) 12004,
     .tag c!"(" false false none 12006,
     .whitespace true 12007,
     .node c!"rule" (some c!"by") none 12008,
     .whitespace false 12009,
     .node c!"rule" (some c!"rule") none 12010,
     .whitespace true 12011,
     .tag c!")" false false none 12012] 12001

/-- src/bootstrap/rules.rs:632-683. -/
def bsTagRule : Rule :=
  .sequence
    [.optional (.tag c!"!" false false (some c!"not") 13003) 13002,
     .node c!"set" (some c!"text") none 13004,
     .optional (.sequence
        [.tag c!":" false false none 13007,
         .optional (.tag c!"!" false false (some bsInv) 13009) 13008,
         .node c!"set" (some bsProp) none 13010] 13006) 13005] 13001

/-- src/bootstrap/rules.rs:686-703. -/
def bsOptionalRule : Rule :=
  .sequence
    [.tag c!"?" false false none 14002,
     .node c!"rule" (some c!"rule") none 14003] 14001

/-- src/bootstrap/rules.rs:706-723. -/
def bsNotRule : Rule :=
  .sequence
    [.tag c!"!" false false none 15002,
     .node c!"rule" (some c!"rule") none 15003] 15001

/-- src/bootstrap/rules.rs:726-743. -/
def bsWhitespaceRule : Rule :=
  .sequence
    [.tag c!".w" false false none 16003,
     .node c!"opt" none none 16004] 16002

/-- src/bootstrap/rules.rs:746-790. -/
def bsUntilAnyOrWhitespaceRule : Rule :=
  .sequence
    [.tag c!".." false false none 17002,
     .node c!"set_opt" (some bsAny) none 17003,
     .node c!"opt" none none 17004,
     .optional (.sequence
        [.tag c!":" false false none 17007,
         .node c!"set" (some bsProp) none 17008] 17006) 17005] 17001

/-- src/bootstrap/rules.rs:793-837. -/
def bsUntilAnyRule : Rule :=
  .sequence
    [.tag c!"..." false false none 18002,
     .node c!"set_opt" (some bsAny) none 18003,
     .node c!"opt" none none 18004,
     .optional (.sequence
        [.tag c!":" false false none 18007,
         .node c!"set" (some bsProp) none 18008] 18006) 18005] 18001

/-- src/bootstrap/rules.rs:840-877. -/
def bsRepeatRule : Rule :=
  .sequence
    [.tag c!".r" false false none 19002,
     .node c!"opt" none none 19003,
     .tag c!"(" false false none 19004,
     .node c!"rule" (some c!"rule") none 19005,
     .tag c!")" false false none 19006] 19001

/-- src/bootstrap/rules.rs:880-929. -/
def bsLinesRule : Rule :=
  .sequence
    [.tag c!".l" false false none 20002,
     .optional (.tag c!"+" false false (some c!"indent") 20004) 20003,
     .tag c!"(" false false none 20005,
     .whitespace true 20006,
     .node c!"rule" (some c!"rule") none 20007,
     .whitespace true 20008,
     .tag c!")" false false none 20009] 20001

/-- src/bootstrap/rules.rs:948-1036. -/
def bsRuleRule : Rule :=
  .select
    [.node c!"whitespace" (some c!"whitespace") none 21002,
     .node c!"until_any_or_whitespace" (some c!"until_any_or_whitespace") none 21003,
     .node c!"until_any" (some c!"until_any") none 21004,
     .node c!"lines" (some c!"lines") none 21005,
     .node c!"repeat" (some c!"repeat") none 21006,
     .node c!"number" (some c!"number") none 21007,
     .node c!"text" (some c!"text") none 21008,
     .node c!"reference" (some c!"reference") none 21009,
     .node c!"sequence" (some c!"sequence") none 21010,
     .node c!"select" (some c!"select") none 21011,
     .node c!"separated_by" (some c!"separated_by") none 21012,
     .node c!"tag" (some c!"tag") none 21013,
     .node c!"optional" (some c!"optional") none 21013,
     .node c!"not" (some c!"not") none 21014] 21001

/-- src/bootstrap/rules.rs:1045-1113. -/
def bsDocumentRule : Rule :=
  .sequence
    [.lines (.sequence
        [.whitespace true 22004,
         .select
          [.node c!"string" (some c!"string") none 22006,
           .node c!"comment" none none 22007] 22005] 22003) false 22002,
     .lines (.sequence
        [.whitespace true 22010,
         .select
          [.node c!"node" (some c!"node") none 22012,
           .node c!"comment" none none 22013] 22011] 22009) false 22008,
     .whitespace true 22014] 22001

/-- The rules before their references are resolved -- src/bootstrap/rules.rs:1115-1141. -/
def bootstrapPushed : Syntax :=
  Syntax.new
    |>.push c!"multi_line_comment" bsMultiLineCommentRule
    |>.push c!"comment" bsCommentRule
    |>.push c!"string" bsStringRule
    |>.push c!"node" bsNodeRule
    |>.push c!"set" bsSetRule
    |>.push c!"set_opt" bsSetOptRule
    |>.push c!"opt" bsOptRule
    |>.push c!"number" bsNumberRule
    |>.push c!"text" bsTextRule
    |>.push c!"reference" bsReferenceRule
    |>.push c!"sequence" bsSequenceRule
    |>.push c!"select" bsSelectRule
    |>.push c!"separated_by" bsSeparatedByRule
    |>.push c!"tag" bsTagRule
    |>.push c!"optional" bsOptionalRule
    |>.push c!"not" bsNotRule
    |>.push c!"whitespace" bsWhitespaceRule
    |>.push c!"until_any_or_whitespace" bsUntilAnyOrWhitespaceRule
    |>.push c!"until_any" bsUntilAnyRule
    |>.push c!"repeat" bsRepeatRule
    |>.push c!"lines" bsLinesRule
    |>.push c!"rule" bsRuleRule
    |>.push c!"document" bsDocumentRule

/-- `bootstrap::rules` -- src/bootstrap/rules.rs:23-1144. -/
def bootstrapRules : Syntax := bootstrapPushed.updateRefs

end Verif
