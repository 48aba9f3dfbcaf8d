# Formal model of piston_meta (PistonDevelopers/meta)

A Lean 4 model of the parser combinator engine, the rule optimizer, the bootstrap rules, the
meta-data converter, the JSON writer, the error message writer and the `search` crate, with proofs
of the properties listed in `properties.jsonl`.  `MANIFEST.json` maps properties to theorem names.

## Layout

| directory | content |
|---|---|
| `lean/Verif/Model/` | the model: one definition per function of /repo, each citing file and lines |
| `lean/Verif/Spec/` | independent specifications (declarative meaning of rules, JSON grammar, ...) |
| `lean/Verif/Proofs/` | helper lemmas and inductions |
| `lean/Verif/Props/` | the property theorems (`C01_...`), each beside non-vacuity examples |
| `lean/Verif/Tests/` | unit tests of /repo replayed on the model |
| `seeded/LOG.jsonl` | wrong programs seeded into a scratch copy, and the theorems that failed; edits that do not type-check are left out; C134, C135 and C137–C139 were not tested with wrong programs of their own, C136 with nine, which all failed in lemmas below it |

How the proofs hang together:

| modules | content |
|---|---|
| `Model/Comp` | outcomes `timeout`, `panic`, `ok` of code that can run for ever |
| `Proofs/Fuel`, `Sound`, `Complete`, `Det`, `RunProps` | `eval` against the relation `Spec.Run`, both directions |
| `Proofs/Rewrite` | replacing rules by equal rules |
| `Proofs/Renumber`, `Proofs/RenumberOpt` | changing debug ids, under parsing and under the optimizer |
| `Proofs/Origin` | errors and items against the rules and the text |
| `Proofs/Total`, `WfCheck`, `Safe`, `Depth` | termination, panic freedom, depth of errors |
| `Proofs/OptSim`, `OptRun`, `OptTotal`, `OptPanic`, `OptGuard`, `Unique` | the optimizer |
| `Proofs/Convert*`, `Items`, `Spans`, `Desc*` | `convert` on well-nested data, on data of a description, on bad data |
| `Proofs/Emits`, `Boot`, `BootEmits`, `Written` | the shape of the data; the shape of what the bootstrap rules produce |
| `Proofs/Reads`, `Notation`, `NotationRule`, `NotationDoc` | texts in the notation are read (`Reads`/`Refuses`: a goal succeeds/fails on a text whatever the state) |
| `Proofs/Took`, `NotationConv`, `NotationExact` | what is read is in the notation (`Took`/`Failed`: inversion of a run) |
| `Model/SelfSyntax`, `Spec/SelfDoc`, `Proofs/NotationCheck` | assets/self-syntax.txt, the document it stands for, a sound checker of the notation |
| `Proofs/Print`, `DataInj` | the printer of rule trees; a document is determined by its data |
| `Proofs/SyntaxFuel`, `Props/Syntax` | `syntax`, `syntax_errstr`, `load_syntax_data` |
| `Props/Errstr` | `parse_errstr`, `parse_errstr_with_indent` |
| `Model/Examples`, `Spec/ExampleDocs`, `Spec/Examples`, `Proofs/DocCheck`, `LineItems`, `Props/Examples`, `Hello`, `IndentTree`, `Spec/Tree` | the programs in examples/: their texts and files, the documents these stand for, sound checkers |
| `Model/Calls`, `Spec/Cost`, `Proofs/Calls`, `CallDepth`, `FuelBound`, `OpenComments`, `Props/Cost` | which calls of `Rule::parse` a call makes, how many and how deep; enough fuel |
| `Props/ParsedStrings` | the strings in the data and bad strings (C139) |
| `Spec/StringText`, `Props/StringRule` | what quoted strings stand for (C138) |
| `Props/ParsedNumbers` | the numbers in the data (C137) |
| `Props/NumberRule` | what number rules read (C136) |
| `Props/WrittenNumbers` | the numbers before the rules (C135) |
| `Props/ReadNumbers` | numbers in JSON texts are read back (C134) |
| `Spec/Rounding`, `Proofs/Rounding`, `Props/Rounding` | numbers are read as the nearest double (C133) |
| `Proofs/Doubles`, `Proofs/NumberText`, `Props/NumberText` | the doubles that are read (C132) |
| `Spec/LeaveOut`, `Proofs/LeaveOut`, `Props/LeaveOut` | leaving out alternatives that never match (C131) |
| `Spec/DataOf`, `Proofs/DataOf`, `Props/DataOf` | exactly which data texts have (C130) |
| `Spec/EditRanges`, `Proofs/EditRanges`, `Props/EditRanges` | the ranges when the text of a node is exchanged (C129) |
| `Spec/DataNames`, `Proofs/DataNames`, `Props/DataNames` | which names occur in the data (C128) |
| `Spec/Tight`, `Proofs/Tight`, `Props/Tight` | leaving out needless whitespace (C127) |
| `Spec/Compose`, `Proofs/Compose`, `Proofs/Edit`, `Props/Edit` | texts put together from parts, and exchanging the text of a node (C126) |
| `Spec/Dead`, `Proofs/Dead`, `Props/Dead` | rules that never match (C125) |
| `Spec/ContextFree`, `Proofs/ContextFree`, `Proofs/Pumping`, `Props/ContextFree` | rules as productions of a context-free grammar, and texts that no such grammar generates (C124) |
| `Spec/ReadBack`, `Proofs/ReadBack`, `Props/ReadBack` | a syntax that reads what `json::write` writes (C123) |
| `Spec/Automaton`, `Proofs/Automaton`, `Props/Regular` | automata as syntaxes (C122) |
| `Spec/Offers`, `Proofs/Offers`, `Props/Offers` | what was expected (C121) |
| `Spec/Continuable`, `Proofs/Continuable`, `Proofs/ContinuableFind`, `Props/Continuable` | check for C118 |
| `Props/Boundary` | errors as the end of what can be continued |
| `Spec/Viable`, `Proofs/Viable`, `Proofs/NumbersEnd`, `Props/Viable`, `Props/ViableCalc` | texts before errors |
| `Spec/Shape`, `Proofs/Shape`, `Props/Shape` | costs of rules of the same shape |
| `Spec/TreeSize`, `Props/TabLinear` | outlines that take four calls for each number |
| `Spec/SlowTree`, `Props/TabCost` | outlines with tabs that take exponential time |
| `Spec/Counts`, `Proofs/Counts`, `Props/Counts` | the number of calls as a relation on rules and positions |
| `Spec/TreeTabs`, `Props/TabTree`, `Props/TabExact`, `Props/Tabs` | trees laid out with tabs |
| `Spec/Predictable`, `Proofs/Predictable`, `Proofs/PredictableCheck`, `Proofs/PredictableFind`, `Proofs/PredictableSteps`, `Props/Predictable` | marks are computed |
| `Spec/Generates`, `Proofs/Generates`, `Props/Generates` | rules read as a grammar |
| `Spec/Predictive`, `Proofs/Predictive`, `Proofs/PredictiveRun`, `Props/Predictive` | syntaxes decided by the next character |
| `Spec/Properties`, `Proofs/Properties`, `Proofs/PropertiesOpt`, `Props/Properties` | changing the properties of rules |
| `Model/DebugText`, `Spec/DebugText`, `Proofs/DebugText`, `Props/DebugText` | what `{:?}` writes |
| `Spec/Tower`, `Props/Tower` | syntaxes that are not recursive and read a text again and again |
| `Spec/Questions`, `Proofs/Questions`, `Props/Questions` | the calls of a parse and what they ask |
| `Spec/SmallHistory`, `Proofs/Cut`, `Proofs/SmallHistory`, `Proofs/SmallFile`, `Proofs/SmallRules`, `Props/UndecidableFiles` | the same for files in the meta language |
| `Spec/Rewriting`, `Proofs/Rewriting`, `Proofs/RewritingTotal`, `Proofs/TuringWord`, `Proofs/Halting`, `Props/Undecidable` | histories of rewriting as texts; what cannot be decided |
| `Model/Writes`, `Spec/Writes`, `Proofs/Writes`, `Proofs/Trace`, `Proofs/Peak`, `Props/Writes` | the vector after each item that is pushed, and how long it gets |
| `Model/StackDepth`, `Spec/StackDepth`, `Proofs/StackDepth`, `Props/StackDepth` | how deep `syntax` calls itself |
| `Proofs/CountedFuel`, `Props/WorkUnique` | the numbers of C96, C100 and C101 are determined by the input |
| `Model/SyntaxCalls`, `Spec/SyntaxCost`, `Props/SyntaxCost` | what `syntax` costs altogether |
| `Model/RefsCalls`, `Spec/RefsCost`, `Proofs/RefsCost`, `Proofs/RefsSize`, `Proofs/RawConvert`, `Props/RefsCost` | what `update_refs` looks at |
| `Model/ConvertDepth`, `Spec/ConvertDepth`, `Proofs/ConvertDepth`, `Proofs/ConvertDepthRules`, `Props/ConvertDepth` | depth of the calls of `read_rule` |
| `Spec/Inline`, `Proofs/Inline`, `Proofs/InlineText`, `Props/Inline` | rule files that mean the same |
| `Proofs/FileSize`, `Props/FileSize` | the data of a rule file |
| `Model/ConvertCalls`, `Proofs/ConvertCalls`, `Spec/ConvertCost`, `Proofs/ConvertCost`, `Props/ConvertCost` | the steps of `convert`, counted |
| `Spec/JsonLayout`, `Proofs/JsonLayout`, `Props/JsonLayout` | the JSON text line by line |
| `Proofs/DataSize`, `Props/DataSize` | bounds for the number of items of data |
| `Model/ByteCalls`, `Spec/ByteCost`, `Proofs/ByteCost`, `Props/ByteCost` | calls of `unique_byte` in the optimizer |
| `Spec/Peg`, `Spec/PegBool`, `Proofs/Peg`, `Proofs/PegRule`, `Proofs/PegAbc`, `Proofs/PegOpt`, `Proofs/PegBool`, `Props/Peg`, `Props/PegBool` | rules as parsing expression grammars, and syntaxes put together from others |
| `Spec/Unclosed`, `Proofs/CostLogic`, `Proofs/BootCost`, `Proofs/BootRule`, `Proofs/BootComment`, `Proofs/BootDoc`, `Proofs/BootLow`, `Props/Linear` | how many calls reading a rule file takes |
| `Proofs/OptCalls`, `Props/OptFewer` | the calls before and after optimizing |
| `Proofs/CallCount`, `Props/Time` | upper bounds of the number of calls |
| `Spec/Near`, `Proofs/Near`, `Proofs/NearStd`, `Proofs/NearOpt`, `Props/Near` | what comes after an error |
| `Spec/Relink`, `Proofs/Relink`, `Proofs/Names`, `Props/Relink` | where references point, order and names of rules |
| `Spec/Change`, `Proofs/Change`, `Proofs/Flat`, `Props/Change` | rules that read the same, but for errors |
| `Spec/Sayable`, `Proofs/Sayable`, `Proofs/SayAny`, `Props/Sayable` | what the notation can say |
| `Spec/Fate`, `Proofs/Fate`, `Proofs/FatePanic`, `Proofs/FateCycle`, `Proofs/FateFuel`, `Props/Fate` | what becomes of a parse: an outcome, a panic, or an endless chain of tries |
| `Proofs/Prepend`, `Proofs/Leftover`, `Spec/Recorded`, `Proofs/Recorded`, `Props/Leftover` | the vector after a parse, also after a failure |
| `Model/OptCalls`, `Spec/OptCost`, `Proofs/OptCost`, `Props/OptCost` | calls of `optimize_rule` |
| `Model/TypeTest`, `Spec/TypeTest`, `Props/TypeTest`, `Props/TypeErrors` | the test `test_type` of src/optimize.rs |
| `Model/Bench`, `Spec/Bench`, `Props/Bench`, `Props/BenchErrors` | benches/bench.rs |
| `Spec/KeyValue`, `Props/KeyValue` | examples/key_value.rs |
| `Model/LibTests`, `Props/Version10` | tests/lib.rs; version 1.0 of the meta language |
| `Model/Writer`, `Spec/Writer`, `Proofs/Writer`, `Props/Writer` | writers that report errors; `load_syntax_data` with files |
| `Spec/ConvertTree`, `Proofs/ConvertTree`, `Proofs/ConvertTreeRule`, `Proofs/ConvertTreeDoc`, `Proofs/ConvertTreeOff`, `Props/ConvertTree` | `convert` on trees of meta data |
| `Proofs/OptTwice`, `Props/OptTwice` | the optimizer as a relation; optimizing twice |

## Trusted base

* Lean 4.33.0's kernel; the axioms `propext`, `Classical.choice`, `Quot.sound`.  No other axiom,
  no `sorry`, no `native_decide`, no `bv_decide`.
* That the model says what the Rust source says.  Definitions are small, computable and follow the
  source function by function; unit tests of /repo are replayed on the model by `decide`/`rfl`.
  Copies of data are compared by the scripts in audit/: the rules of src/bootstrap/rules.rs are
  translated and compared rule by rule, the texts in assets/ character by character, and the texts in
  examples, benchmarks and tests are looked up in their files.
* The external crates, which are not part of /repo:
  * `range` 1.0: `Range { offset, length }`, `next_offset = offset + length`, `empty`, `wrap`,
    `ends_intersect`, modelled from their use and documentation.
  * `read_token` 1.0: positions, `tag`, `whitespace`, `until_any`, `until_any_or_whitespace`,
    `raw_string`, `peek`, `consume`, `subtract`, `start` are defined outright.  `string`,
    `parse_string`, `number`, `parse_number` and the decisions of `lines` are parameters (`Lexer`)
    subject to the contract `Lexer.Lawful`; theorems hold for every lawful lexer.  A concrete
    lawful lexer (`stdLexer`) shows that the contract can be met and is used for the replayed unit
    tests.  C49 needs in addition that no number begins with a slash; C53 needs the contract
    `Lexer.Exact` (a string in quotes ends with a quote and does not depend on what follows; a
    number does not begin with whitespace, `_` or `/`; lines are separated by new lines); C63 needs
    that the numbers 0 to 22 are read as these numbers (`ReadsNumbers`), as do C66 to C69; C68 and
    C69 need that `lines` goes on behind an item that ends in a new line (`ResumesLines`), C69 that
    numbers contain no space (`SolidNumbers`).  All are proved for `stdLexer`.
  * How `read_token` prints its two error types is the parameter `ErrText`.
  * `char::is_whitespace` is the Unicode property White_Space.
* Rust semantics: `usize` is unbounded where the value is bounded by the length of a text in
  memory; arithmetic that can really overflow or underflow (`indent` in `lines.rs`, `id * 1000` and
  `acc -= 1` in `convert.rs`, indentation in `json.rs`) is modelled with overflow checks on, as a
  panic.  Index out of range is a panic.  Memory exhaustion and stack overflow are not modelled: an
  unbounded recursion of the source is a run that never returns in the model.
* Parameters: `fmt`, how Rust prints an `f64` with `{}`; `dbg`, how it prints an item of data with
  `{:?}` (messages of `Search`; C108 gives it).  In `Model/DebugText` `plain` says which characters
  are not escaped as `\u{..}`; that `derive(Debug)` writes names and fields in the order of the source is assumed.
* Files are a function from paths to texts, `none` if a file cannot be opened or is not UTF-8; they do
  not change during a call.  A writer is an arbitrary state machine for `write_all`; how `write!`
  cuts a text into pieces is the parameter `Cut`.
* Not modelled: time (but the number of calls is, C71), `Arc` sharing.

## Executions

The engine can run for ever, so `eval n` is the engine cut off at nesting depth / loop length `n`,
with outcomes `timeout | panic | ret`.  Fuel monotonicity makes "the" outcome well defined: a
property of executions quantifies over all `n` with a non-`timeout` outcome, "returns" is
`∃ n, outcome n ≠ timeout`, "never returns" is `∀ n, outcome n = timeout`.

## Plan per property

| id | modelled | proof |
|---|---|---|
| C01 | `parseWithIndent` | range invariants of `eval` (induction on fuel), then case analysis |
| C02 | `eval`, `readData`, `parse` | invariant `toks.take s` unchanged, induction on fuel |
| C03 | `eval` | simulation between two runs with different prefixes (induction on fuel) |
| C04 | `eval` against `Spec.Run` (big-step relation without vectors, errors or truncation) | refinement in both directions: soundness by induction on fuel, completeness by induction on the derivation |
| C05 | `Spec.Run` | induction on the derivation, `WellNested` grammar; transfer by C04 |
| C06, C07 | `Spec.Run` | induction on the derivation, transfer |
| C08 | `eval` | range invariants for errors, induction on fuel |
| C09 | instrumented trace of elementary failures | the trace is a function of the run; max-depth invariant |
| C10–C20 | API-level meaning of one rule, `Denotes` | equivalences derived from C04's refinement |
| C21, C22 | `evalLines` and closures | equivalences against a line-oriented specification |
| C23 | `eval` | refuted by a concrete syntax; `_partial`: no leak when `align_first` is off or no `.l+` occurs |
| C24 | `updateRefs` | induction on rules |
| C25 | well-formedness checker (nullable / reach without reading) | well-founded induction on (text length, rank); divergence by induction on fuel |
| C26 | `eval` | invariant: indices in range, induction on fuel |
| C27, C28 | `optimizeRule` | relation between original and optimized rules, simulation; refuted at end of text by a witness |
| C29, C30 | `uniqueByte`, `uniqueTable` | induction on fuel / on the argument list |
| C31 | `optimizeRule` | rank argument; divergence by induction on fuel |
| C32 | `writeString` | induction on the string; independent JSON string grammar |
| C33 | `Json.write` | induction on the tree of the data, independent JSON value grammar |
| C34 | `Json.write` | counting argument |
| C35, C36 | `ErrorHandler` | induction on the text; refuted for non-ASCII by a witness |
| C37 | `Convert.*` | induction on fuel with a size measure |
| C38 | `Convert.*` and an encoder of rule trees | induction on the tree |
| C39 | `Convert.*`, `F64.toUsize` | invariant on the id counter; the number of a node is `F64.IsUsize` (Spec/Float), from the bits alone (Props/Numbers) |
| C40, C41 | `Convert.*` | lookup lemma; witnesses |
| C42 | `Convert.ignore/update/subtract/source` | induction on the well-nested item; for any data (Props/ConvertHelpers) by the number of open nodes |
| C43, C44 | `Search` | induction on the data |
| C45 | `Rule.peq` | induction on rules |
| C46 | composition of C25, C26, C05, C37, C31 | bootstrap rules checked well formed by `decide` |
| C47 | `eval` | simulation between two runs at different offsets |
| C48 | `readData` | induction over histories |
| C49 | notation (`Spec/Notation`), printer to the meta language, `eval` on bootstrap rules | induction on the description; comments by induction on their bodies |
| C50 | `MetaData.peq` | case analysis on IEEE 754 bit patterns |
| C51 | `Spec.Emits` | induction on the run |
| C52 | `readSyntaxErrstr`, `loadSyntaxData` | composition; fuel monotonicity |
| C53 | notation against `eval` on bootstrap rules, converse of C49 | inversion of runs, induction on the length of the text |
| C54 | `ErrorHandler` | induction on the lines of the text, generalized to a byte before a character |
| C55 | `optimizeRule`, `uniqueTable` | the same simulation as C27, from the original with guards (`EndGuarded`); guards change no unique byte and no table |
| C56 | `eval` | induction on `Run` (`run_told`): every failure of the trace has a rule that is `Part` of the syntax and `Blames` the text |
| C57 | `eval` | the same induction: every item `Records` the text at its range.  Items left in the vector by a failed parse are not covered |
| C58 | `lineClosureIndent`, `evalLines` | the later lines of a block restore the indentation (`lines_later`); induction on `Run` for the other rules (`run_leaks`).  The exact form of what C23 denies |
| C59 | `eval` | `Same` (equal runs) by inversion; lists by `seq_append`, `sel_append`; `C59_meaning` carries it to the parser |
| C60 | `eval`, `parseWithIndent` | `run_rewrite`: induction on `Run` for goals that keep their form, laws applied last, which makes both directions the same proof |
| C61 | `eval`, `parseWithIndent`, `optimizeRule` | `run_renumber`: induction on `Run`, with equal places and alike errors; `optimizeRules_renumber` on fuel |
| C62 | `ParseError.text`, `reportErr` | case analysis; decimal numbers are injective and contain no comma |
| C63 | `selfText` (assets/self-syntax.txt), `bootstrapRules`, `readSyntax` | a checker for the notation, proved sound (`eatNode_text`), run on each rule of the text by `decide +kernel`; then C49, C61, C27 |
| C64 | `readSyntax`, `Syntax.optimize`, `convert`, `Doc.Overflows` (Spec/Desc), `OptimizerLoops` (Spec/Optimize) | `unique_byte` is a partial function with a single call at a time: it returns iff the chain of calls is well-founded, and on finitely many parts iff there is no cycle; readers of `convert` are described up to a panic when the last id is too large (`capped`, Proofs/Desc) |
| C65 | `parseErrstr`, `parseErrstrWithIndent` | composition of `parseWithIndent` and `reportErr`; `writeErr_ok`, C62 and C35 for the text |
| C66 | `bootstrapMain`, `bootstrapOldMain` (Model/Examples), `BootstrapEnds`, `BootstrapOldEnds` (Spec/Examples) | the files stand for documents given as data (`selfDoc`, `oldDoc`; `eatDoc` checks that a text is the text of a document and is proved sound), then C40, C49, C61, C63 and C27; the file in the old notation is read line by line with `stdLexer` (`itemsOk`, proved sound in Proofs/LineItems) |
| C67 | `exampleMain`, `negMain` (Model/Examples), `HelloSays` (Spec/Examples) | C49 gives the rules that `syntax` returns, with the table; one run per case of `HelloSays`, which covers every text, then determinism |
| C68 | `exampleMain`, `Tree`, `Laid`, `ResumesLines` (Spec/Tree) | induction on the layout: a node reads along the space up to the next line further left, so a block goes on behind an item that has read the new line |
| C69 | `TreeText` (Spec/Tree) | forward by induction on the layout, backward by induction on the length of the text: what is left behind a tree is nothing, or a line of which the gap before it ends with a new line, or the rest of a line on which `lines` does not go on |
| C70 | `subcalls`, `callCount`, `callDepth` (Model/Calls), `Costs`, `rulesSize` (Spec/Cost) | `subcalls` is validated both ways (the result depends on the listed calls only; a listed call that does not return is waited for); then a call is further on than the call that makes it, or at a rule that this leads to without reading, and without a cycle such a chain is no longer than the number of rules |
| C71 | `openings` (Spec/Cost) | an unclosed comment is refused; its inside is gone through twice, once by the comment opened first in it and, after that has failed, once as characters, so every opening doubles the calls |
| C72 | `Optimized`, `BeginsWith` (Spec/Optimize) | both directions with the cut off removed; a rule and its optimized form have the same unique byte, so the second pass finds the same tables not to make |
| C73 | `Piece`, `Piece.rule`, `nodeReads`, `pieceReads` (Spec/ConvertTree) | each reader on the data of a tree returns what the tree stands for, by induction on its size; loops over items as a walk over the kids; the offset changes only the ranges |
| C74 | `jsonTo`, `errTo`, `msgTo`, `stderrUnwrap` with any `Writer` (Model/Writer) | every function is a list of pieces given to `write_all` until the first error (`Delivers`), composed statement by statement; the pieces make up the text of C32 to C36 |
| C75 | `loadFiles` (Model/Writer) | case analysis; what is written by C74 |
| C76 | `newSelfText`, `selfText10`, `useNewSelfSyntax`, `useOldSelfSyntax` (Model/LibTests) | the proofs of C49 and C53 with `lines` as a parameter (`Boot.refsOf`); C63 for the other document |
| C77 | `keyValueMain`, `keyValueRules` (Model/Examples) | the grammar is `KvText` (Spec/KeyValue); induction on the lines in both directions; `NoIndent` rules return on every text (C25) |
| C78 | `benchRun`, `benchDataRun`, `benchDeepRules` and others (Model/Bench) | the grammars are `GreetText` and `DeepText` (Spec/Bench), shown for the rules that are not optimized and carried over by C27; the calls are counted as in C70; what is wrong with any other text, and where, is `GreetWrong` and `DeepWrong`, and the report is of that error (`C78_greeting_reports`, `C78_deep_reports`), shown for the optimized rules |
| C79 | `testTypeRun`, `testTypeRules` (Model/TypeTest) | the types are `typeText`, the data `typeData` (Spec/TypeTest); shown for the rules that are not optimized and carried over by C27; the calls are counted as in C70; what is wrong with any other text, and where, is `TypeWrong`, and the report is of that error (`C79_reports`), shown for the optimized rules |
| C80 | `optimizeRuleCounted`, `readSyntaxCounted` (Model/OptCalls) | the optimizer once more with each result beside the number of calls made for it; shown to be the same when the numbers are left out; the number is `optWork` (Spec/OptCost), defined by `BeginsWith` |
| C81 | `eval` with items in front (Proofs/Prepend), `VecOk` (Proofs/Leftover) | the first is an equation, by induction on the fuel; the second an invariant of the whole vector, with soundness for what comes before the state; well nested data may be put into well nested data anywhere; the exact account is a relation of its own, `Recs` (Spec/Recorded): the list of what stands recorded after each recording, given by cases on `Run`; it is determined, and the vector follows it by induction on the fuel (Proofs/Recorded) |
| C82 | `Tries`, `Crash`, `Reaches` (Spec/Fate) | a site is a goal, a position and an indentation; a site with an outcome is accessible, one accessible and not doomed has an outcome; panics and cut-offs of `eval` are traced back to chains of tries by induction on the fuel; sites are finitely many with a lawful lexer |
| C83 | `Sayable`, `Says` (Spec/Sayable) | what a document is read as is sayable; a document is written down for any sayable rules; tokens under `not` are put into a sequence (C59, C60), references get names that tell their places, ids differ (C61), lists that forbid a separator at the end are said with repetition (C84) |
| C84 | `SameReading`, `Change`, `Flat` (Spec/Change) | a run stays a run when rules are changed from the inside out, by induction on the run; without indented lines the indentation stays as it is |
| C85 | `Linked`, `Relinked`, `Met`, `meant`, `Interchangeable` (Spec/Relink) | the evaluator and the optimizer compute the same on related rules, by induction on the cut off; names are related if they stand for the same rule |
| C86 | `Near`, `NearNumbers` (Spec/Near) | a run stays a run when the text is changed beyond the deepest failure and the end of what is read, by induction; a failure is met where a rule is tried or further, so what is read before it is not beyond the error |
| C87 | `Leads`, `NonRecursive` (Spec/Cost) | the calls that a call makes are at places that come later in the text and at each place at most as many as the rule has parts; a geometric sum over the places, by induction on the cut off; without recursion the calls are the ways down a tree of bounded height |
| C88 | `Costs` (Spec/Cost), `TailsRefused` | the two parses side by side: the calls of the optimized rule follow those of the original; where a table replaces a select, the refused alternatives cost a call each, which pays for the select over the rest |
| C89 | `unclosed` (Spec/Unclosed), `Costs` (Spec/Cost) | a logic for the calls of `Rule::parse` (`Below`): each rule gets a relation between the text, what is read and the number of calls, one lemma for each kind of rule; the alternatives of a rule begin differently, so that refusing costs little; in a comment the potential 1000(n+1)2^u pays for reading twice what follows an unclosed opening |
| C90 | `Doc.Text` (Spec/Notation), `Costs` (Spec/Cost) | the text is in the notation, hence accepted (C53); the first comment alone costs the difference between 2^u at its begin and at its end |
| C91 | `Peg.Matches`, `pegOf`, `ruleOf` (Spec/Peg) | induction over `Run` one way; over `Peg.Matches` the other way, with a view of the goals that have parts; a list with separators is a repetition of separator and item, followed by an optional separator or by none |
| C92 | `others`, `common`, `eitherOf` (Spec/PegBool) | through C91: expressions with renamed references do the same, and rules added behind do not matter; a rule followed by the end of the text reads everything or fails |
| C93 | `uniqueByteCounted`, `optimizeRuleBytes` (Model/ByteCalls) | as C80; the length of a chain is a function of the rule and decreases along it, so that the rules in a chain differ, and they are among the rules of the syntax |
| C94 | `parseWithIndent` | induction on `Run` with two bounds at the same time, one for what has read nothing, by how deep a rule can still call itself, one for what has read something; the numbers are the fields of `SizeBound` |
| C95 | `writeJson` | the loop writes the end of a line together with the next item; shown to be the same as ending each line, by induction; depth of a line as a difference of counts, bounded by the distance from both ends |
| C96 | `Counted.convert` | the readers again with a number that is shown to change nothing; per item a bound that is paid by the item itself, except for `ignore`, which is paid by what it appends; induction on the nesting for the depth |
| C97 | `bootstrapRules`, `Counted.convert` | by C53 the text stands for a document; induction on the notation: four items for each character, one less for a rule, and whitespace between rules pays for the node around each |
| C98 | `readSyntax`, `bootstrapRules`, `convertMetaData` | C49/C64: what `syntax` does depends on the document read; replacing strings keeps the reading, shifting the first id shifts all ids, and C61 for the optimizer and the parser |
| C99 | `convertTo` (`Model/ConvertDepth`): `convert` with a bound on the depth of `read_rule` | with enough depth the bounded readers return what the readers return, by induction on the depth of the data; what is returned at depth `d` is not deeper than `d`; C97 for the length |
| C100 | `updateRefsCounted`, `Counted.convertAll` (`Model/RefsCalls`): `update_refs` and `convert` with counters | counters as functions of the rules (`outerSizes`, `openRefsL`, `lookedAt`) by induction; `convert` split into what is read and `update_refs` (`Proofs/RawConvert`); descriptions are as wide as their text allows (`Proofs/RefsSize`) |
| C101 | `readSyntaxWork` (`Model/SyntaxCalls`): `syntax` with all counters | the numbers of C89, C97, C100, C80 and C93 put together; `Desc.wide` and `Desc.links` bound the nesting of selects with three parts by the text |
| C102 | `readSyntaxTo`, `convertAllTo`, `optimizeTo`, `updateRefsTo` (`Model/StackDepth`): the same functions cut off at a depth | exact depth of each as a function of the rules (`outerDepths`, `optDepths`) by induction on the depth; `convertTo` monotone in the fuel; parse by C70 and C88, convert by C99, sizes by C100 |
| C103 | `writes` (`Model/Writes`): the vector after each push, from the calls of `Model/Calls` | `eval_wrote`: exactly the recordings of `Recs`, by induction on the depth as for C81; `Threaded`: the vector is handed from call to call; `recs_held`: a bound for what stands recorded by induction on `Recs` with the numbers of C94, where what is not yet read pays for what is to come |
| C104 | `historySyntax` (`Spec/Rewriting`): the texts are histories of rewriting, each word written backwards and then forwards with a mark, so that neighbours are compared by nesting and the lookahead (`!!`) lets each word be read twice | `history_inv`, `history_ok` and `history_settled` on the grammar of C91; `halts_reaches`: Mathlib's machines (`TM0`) as rewriting; `machine_halting`: Mathlib's halting problem through `ToPartrec` and the stack machines down to one machine |
| C105 | `smallSyntax` (`Spec/SmallHistory`): the rules of C104 with each select as a chain of rules with two alternatives; `fileOf` | `cut_matches`/`matches_cut`: grammars in which parts have been given names read the same; `doc_means`: what is read from the text of a document, through C83, C61 and C27; `file_text`: the text before the last rule does not depend on it; Mathlib's many-one reductions |
| C106 | `allCalls`, `Makes`, `asks`, `SameAnswer` (`Spec/Questions`): the calls of a parse, as a list | `subcalls_on`, `subcalls_flat`: where calls are and with which indentation; `eval_sim` (C03) and `Run.det` for the answers; counting |
| C107 | `tower`, `towerCost` (`Spec/Tower`) | `tower_all` by induction on the level; `pow_sum`: sums of powers; C87 |
| C108 | `Rule.debug`, `Syntax.debug`, `MetaData.debug` (`Model/DebugText`), `Rule.blank` (`Spec/DebugText`) | every field of the text can be read off and the rest is left over (`rule_iff`, `str_iff`, `dec_stop`) |
| C109 | `Relabelled`, `relabel`, `relabelItem` (`Spec/Properties`) | `run_relabel` by induction on runs, for any relation of data that goes with properties (`Labels`); used with the trivial relation in both directions and with the function |
| C110 | `Mark`, `markOf`, `Decided`, `Predictive` (`Spec/Predictive`) | what is read again without success is paid for once (`Pq`), and calls without reading are paid for from a store that falls with them (`Pays`, `below_predictive`) |
| C111 | `Generates`, `moreOf`, `OneWay`, `LL1`, `Reordered` (`Spec/Generates`) | where a rule does not begin it fails, since it has a result (`run_not_first`), so that the run follows the derivation (`generates_runs`) |
| C112 | `Found`, `foundOf`, `known`, `clear`, `findMarks`, `confirms` (`Spec/Predictable`) | marks with lists mean marks (`markOf_mark`), larger marks give larger marks (`markOf_mono`), so the steps stay below any marks and come to rest (`findMarks_stops`) |
| C113 | `TabTree`, `TabKids`, `TabRows`, `NumbersEndLines` (Spec/TreeTabs) | both directions by induction as for C69, with the column from which a line would belong to the tree before it; where every number ends its line no block of lines fails (`lines_never`), so a block is left only at a line that does not reach it (`stops`, `stop_width`) |
| C114 | `Counts` (Spec/Counts), clause by clause beside `Run` | one induction over the interpreter: what `subcalls` (Model/Calls) lists is what the clauses of `Counts` add up (`eval_counts`); `Counts` is functional (`Counts.det`) |
| C115 | `levels`, `slowTree` (Spec/SlowTree) | costs by C114; a level is read once in vain and once in earnest by the outer block, each time reading the levels within (`levels_take`, by induction on the number of levels) |
| C116 | `Tree.numbers` (Spec/TreeSize), `TabTree` (Spec/TreeTabs) | the induction of C113 with counts (C114) beside the outcomes; texts without tabs by C69, texts with one number on each line by C113 |
| C117 | `SameShape` (Spec/Shape) | simulation of `Counts` (C114) by induction; the outcomes are carried over by C109 (properties), C61 (debug ids, names) and C47 (offset) |
| C118 | `Continues`, `Productive`, `Yields` (Spec/Viable), on top of `Generates` and `LL1` (C111) | what is generated is generated before any text that may follow (induction on `Generates`); induction on `Run` for all failures; numbers of the concrete lexer in Proofs/NumbersEnd |
| C119 | `CanGoOn` (Props/Boundary): some accepted text begins with the first k characters | C118 before the error, C86 after it |
| C120 | `confirmsContinues` (Spec/Continuable): lists of characters that must not follow, rules that generate some text | sets of characters as lists (C112); least lists by counting; soundness by C118 |
| C121 | `Misses` (Spec/Offers): which rule an error tells of; `Yields` (C118) of that rule | the induction of C118 with a text in place of the part that failed |
| C122 | `Language.IsRegular` and `DFA` of Mathlib; `Automaton` (Spec/Automaton) with numbered states | induction over the text: the rule of a state reads the whole rest exactly if the automaton does, and `Counts` (C114) |
| C123 | `readBack`, `NumberBack`, `JsonRules.syn` (Spec/ReadBack) | what the loop writes is generated by the syntax, by induction over the nesting; C112 makes it what is accepted | 
| C124 | `OnlyTags`, `ways` (Spec/ContextFree), `Language.IsContextFree` (Mathlib) | parts of rules are finitely many, so are the goals and productions; what the productions generate is `Generates`, which C112 makes what is accepted; the pumping lemma for context-free grammars (Proofs/Pumping) | 
| C125 | `isDead`, `confirmsApart`, `MatchesSomewhere` (Spec/Dead) | a least fixed point that is reached after as many steps as there are rules; by induction over runs; what is not dead generates a text (C120), and what is generated is read (C111) | 
| C126 | `Composes`, `ReadsAlone` (Spec/Compose) | what is generated (C111) splits into texts that are read alone, and such texts may stand beside each other (as in C118); the rest by induction over how a text is put together | 
| C127 | `tight` (Spec/Tight), `Composes` (Spec/Compose) | by induction over how a text is put together (C126), whitespace is exchanged for nothing or for one space | 
| C128 | `gives`, `findGivers`, `mayGive`, `dataName` (Spec/DataNames) | induction over runs for the names that occur; for the others a text is put together (C126) from texts of rules that may match (C125) | 
| C129 | `laterTok`, `Moved` (Spec/EditRanges) | as C126, keeping track of the ranges: what is put together is the same anywhere, with its ranges moved | 
| C130 | `DataOf`, `NumberValue`, `EmptyQuotes` (Spec/DataOf) | C126, with an induction over what is put together, and one over the data, which gives a text for each leaf | 
| C131 | `leaveOut`, `withoutDead` (Spec/LeaveOut) | C84 in each direction: leaving out from the inside, putting in again from the outside; C125 for the rules left out, C25 for their return | 
| C132 | `NumberValue` (Spec/DataOf), `F64.exponent`, `F64.fraction`, `F64.units` (Spec/Float) | the rounding of `Std.ratBits` finds the exponent of an exact value at once or with one step; digits for every natural number; every finite double is a natural number times a power of ten | 
| C133 | `NumText`, `decimal`, `F64.away`, `F64.IsNearest` (Spec/Rounding), `F64.units` (Spec/Float) | doubles without sign are ordered as their bits; the scaled quotient has 53 bits (fewer if subnormal), so the candidates are neighbours, and the remainder says which of them is nearer | 
| C134 | `PrintsNear`, `NumText`, `F64.IsNearest` (Spec/Rounding), `NumberBack` (Spec/ReadBack) | the parts of a number are read one by one; C133 for its value, C132 for a formatter; C123 and determinism for the data | 
| C135 | `IsNumber` (Spec/Notation), `NumText`, `F64.IsNearest` (Spec/Rounding), `F64.IsUsize` (Spec/Float) | natural numbers up to `2 ^ 53` are doubles, so they are nearest to themselves (C134); C39 for the ids | 
| C136 | `NumText`, `SaysNumber`, `F64.IsNearest` (Spec/Rounding), `Accepts` (Spec/Api) | part by part: what is read contains every number that the text begins with, and says a number itself (C133) | 
| C137 | `NumText`, `SaysNumber`, `F64.IsNearest`, `PrintsNear` (Spec/Rounding) | C57 and C81 for the origin of the items, C133 for their values, C136 for the errors (C56); infinity is compared with its lower neighbour | 
| C138 | `StrText`, `QuotedText`, `simpleEscapes`, `hexDigitVal` (Spec/StringText) | the scan and the decoding against the grammar, by strong induction on the length; a hexadecimal digit is neither quote nor backslash | 
| C139 | `StrText`, `QuotedText` (Spec/StringText), `SaysString` | C57 and C81 for the origin of the items, C138 for their values, C56 and the first failing step of the decoding for the errors | 

## Findings

1. A table look-up rule with a tail fails at the end of the text even when the tail alternative
   matches nothing, so optimizing changes what `{"a" "b" .w?}` accepts.
2. `.s?(by rule)` allows a trailing separator although the documentation says only `.s?.` does.
3. A rule using an undefined `_string` is silently dropped.
4. The indentation found by aligning `.l+` leaks out of the rule, also on backtracking.
5. `bootstrap::convert` loops for ever on data that ends inside a node and underflows on a stray
   EndNode.
6. `optimize` does not return on left recursive syntaxes.
7. Error locations are wrong if and only if a line before the line of the error has a multi-byte
   character (bytes against characters).
8. JSON strings with control characters other than `\n \r \t` are not escaped.
9. A rule containing a table look-up is not equal to itself.
10. On Err, `parse` leaves tokens of failed alternatives after the caller's tokens.  They may hold nodes that are open, so data parsed into the
    same vector afterwards is not well nested (C81).
11. `.r?(.w?)` and similar repetitions never return.
12. `json::write` underflows on data that closes before it opens.
13. The `FastSelect` branch in `optimize_rule` is unreachable from rules without `FastSelect`.
14. JSON output is not JSON when a number is NaN or infinite.
15. A deeper line ends a block of lines only when it is indented with spaces, not with tabs
    (lines.rs:79).
16. The bootstrap rules use the debug ids 21013 and 7004 twice.
17. The message of `Search::bool` lacks the comma the others have (search lib.rs:223).
18. In the notation a comment cannot follow a node on the same line, and `/* /*/` is a complete
    comment: a nested `/*` that is never closed is taken as plain characters.
19. The assertion of examples/bootstrap_old.rs fails: `syntax` returns optimized rules, and tables
    equal nothing (finding 9), while `convert` returns rules without tables (C66).
20. The first item of `.l` and `.l+` need not begin on a new line: the rules of examples/indent.rs
    read `1 2`, and even `1-2`, as 1 with a child, but reject `1 2 3` (C69).
21. The recursion of `Rule::parse` is as deep as the text demands, with no limit: comments opened
    and not closed, or rules nested in rules, overflow the stack of the process (C70).
22. Unclosed comments take exponential time: a rule file of 120 characters, `/* ` forty times, needs
    more than 2^40 calls before it is rejected (C71).  After a comment inside a comment has failed,
    its text is tried again as characters of the comment around it.
23. The second attempt of the optimizer (src/optimize.rs:134-147: a table for the alternatives after
    the first) is dead code: it looks whether a `Rule::Select` just built is a `Rule::FastSelect`.  A
    select whose first alternative has no unique byte is never made a table (C72).
24. What happens to an item that `convert` does not know depends on the node it is in (C73).  In most
    nodes it is ignored and its range is pushed to `ignored`.  In `whitespace`, `optional`, `not`,
    `lines`, `rule`, `string` and the texts the reader gives up, and the range of the item around the
    whole is reported instead, or the conversion fails if nothing is left of the node.
25. In examples/key_value.rs the last alternative of a value, any word, is not tried when an earlier one
    reads a part of the word (C77, `C77_no_fallback`): `date = 2020-01-01` and `x = truest` are rejected,
    while `x = "abc`, a string that is not closed, is read as the word `"abc`.
26. The rules of `bench_deep_string` recurse once for each word, three levels of `Rule::parse` each (C78,
    `C78_deep_cost`): the text of the benchmark is 526 levels deep.  With the rules of `bench_select_tail`
    the greeting `hi Peters!` is rejected, because the tail is not tried after `Peter` (`C78_no_fallback`).
27. Nodes numbered 1 and 1.5 share their debug ids, as do nodes with negative numbers and number 0: the number is cut
    off at the point, so that the id in a message does not tell which node it is from (C39, `C39_same_number`).
28. The optimizer takes exponential time on nested selects (C80).  `optimize_rule` optimizes all but the first alternative
    of a select, looks whether the result is a table, which it never is (finding 23), and optimizes all of them again.
    `syntax` needs more than 5 * 10^12 calls for a rule file of 409 characters; as with finding 22, rule files from
    others are not safe to read.
29. A failing alternative does not take back the indentation it has set (C84, `C84_again_refuted`): with indented lines
    `{a a}` may accept a text that `a` rejects, and the result of a select depends on the alternatives that failed.
30. A rule that nothing refers to can keep `syntax` from returning (C85, `C85_unused_refuted`): the optimizer looks at
    every rule, also at those that parsing never comes to.
31. Where the rule inside a `not` fails is forgotten (C86, `C86_not_refuted`), so the error of a text may be far before the
    character that has to be changed; the same for a quote that is missing (`C86_text_refuted`).
32. Optimizing can deepen the recursion (C88, `C88_depth_sharp`): a table with a tail puts a `Select` between itself and
    the rest, so nested ones need almost twice the stack, although there are fewer calls.
33. Not only files with unclosed comments take exponential time (C71): the line `/* /*/` is a comment, closed by its last two
    characters, but the second `/*` is first read as the begin of a comment within, up to the end of the file. Forty-one such lines
    (287 characters) are accepted after 10^12 calls (C90). Without such openings the time is linear (C89).
34. The data is linear in the text only with a factor that may be exponential in the rules. Rules that read nothing but
    give data (`"":"ha"`), each called twice by the next, make 2^30 items of one letter with 32 rules (C94). Nothing limits
    the size of the data.
35. `convert` looks again at everything that it ignores, once for each rule around it: an undefined string inside `k` nested
    `.r?(..)` takes time quadratic in `k`, and if the outermost is in a sequence the file is accepted without it (C96).
36. A tag with an empty text (which matches everywhere) cannot be written in quotes, but it can be written as the name of an empty string (C98).
37. `read_rule` calls itself once for each character `?` of `0 a =???b`; a rule file of a megabyte can nest its calls a million deep, and nothing limits the depth (C99; C70 for parsing).
38. `update_refs` searches the names one after the other for each reference, so that reading `k` lines `0 a =b` looks at `k * k` names; a map from names to indices would look at `k` (C100).
39. Reading a rule file of `t` characters is quadratic but for two things, both exponential: comments that are not closed (C89) and selects that the optimizer tries twice, nested (C80); six characters more double the number of calls (C101).
40. Nothing in `syntax` limits how deep it calls itself: the depth is linear in the text, at most 362 for each character, and linear depth is needed, so that a rule file of some megabytes of `?` overflows any stack of the usual size (C102).
41. **No check of syntaxes can be exact.**  Whether a syntax accepts any text, and whether there is a text on which parsing runs
    for ever, cannot be decided (C104).  A check such as the one for well-formedness (C25) has to refuse syntaxes that are fine.
42. **No tool can compare two syntax files.**  Whether two files accept the same texts cannot be decided, nor whether a file accepts
    anything, nor whether it can make the parser run for ever (C105).
43. **Exponential time is repetition.**  A parse asks at most (rules in the syntax) times (characters + 1) different questions; a
    table of answers would make reading rule files polynomial, in particular those with unclosed comments (C106).
44. **The Debug text of a look-up table is empty.**  `Debug for FastSelect` writes nothing, so syntaxes that accept different texts
    print the same after optimizing (C108).
45. **Outlines indented with tabs are misread from the second level on** (C113, `C113_tab_siblings`).  The indentation of the first
    line of a block counts as the column needed, even if a tab reaches further (src/meta_rules/lines.rs:50-76), so the next line with
    the same tabs reaches the column of a child of the first: `1\n\t2\n\t\t3\n\t\t4` makes 4 a child of 3.  Four spaces for each tab make
    it a sibling.
46. **A text of ten thousand characters that examples/indent.rs reads but never finishes** (C115, `C115_forty`).  When a line with a tab
    reaches beyond the column that a block needs, the line is tried inside that block and, if the rest of it cannot be read there, all
    the block has read in it is thrown away and read again further out (src/meta_rules/lines.rs).  Nested, this doubles the time for
    every level: 36·2^n − 25 calls for n levels, with a text of order n².
