{"id": "C01", "title": "A successful parse has read the whole text", "statement": "If `parse(rules, text, tokens)` returns Ok then the last rule of the syntax matched a prefix that ends exactly at the last character of `text`; if the last rule matches but stops earlier, `parse` returns Err, located at or after the place where the match stopped.", "quantifier": "every syntax, text and prior token vector, every indentation setting", "why_tests_cant": "the set of syntaxes and texts is infinite and rules nest without bound", "anchors": ["src/meta_rules/mod.rs: parse_with_indent, parse", "src/meta_rules/rule.rs: Rule::parse"]}
{"id": "C02", "title": "Tokens already in the vector are never touched", "statement": "Whatever `parse` returns, every token that was in the caller's vector before the call is still there, unchanged and in the same place; on Ok the vector is the old tokens followed by the tokens of this parse and nothing else.", "quantifier": "every syntax, text, prior vector, for both outcomes", "why_tests_cant": "rules truncate and overwrite the shared vector while backtracking; which prefix survives depends on every possible backtracking history", "anchors": ["src/meta_rules/mod.rs: parse_with_indent", "src/tokenizer.rs: read_data", "src/meta_rules/*.rs: parse"]}
{"id": "C03", "title": "The data produced does not depend on what was in the vector", "statement": "Parsing the same text with the same rules into any vector gives the same Ok/Err (with the same error) and appends the same tokens.", "quantifier": "every pair of prior vectors, every syntax and text", "why_tests_cant": "leftover tokens of failed alternatives make the vector contents differ during the run; equality has to hold for every history", "anchors": ["src/meta_rules/mod.rs: parse_with_indent", "src/tokenizer.rs: read_data, TokenizerState"]}
{"id": "C04", "title": "Backtracking leaves no trace in the data", "statement": "The tokens delivered by a successful parse are exactly those emitted by the rules on the successful path, as given by the documented meaning of each rule with no shared vector and no truncation; the parser succeeds with that data if and only if the documented meaning assigns it.", "quantifier": "every rule tree, syntax, text, position and prior vector (refinement in both directions)", "why_tests_cant": "needs all nestings of optional, select, repeat, separate, lines and not", "anchors": ["src/meta_rules/rule.rs: Rule::parse", "src/tokenizer.rs: read_data"]}
{"id": "C05", "title": "Meta data is well nested", "statement": "The tokens appended by a successful parse form a sequence in which every StartNode is closed by an EndNode of the same name, properly nested, and no EndNode appears without its StartNode.", "quantifier": "every syntax (including recursive ones) and every text", "why_tests_cant": "depth of nesting is unbounded and failing branches write unmatched StartNodes into the vector", "anchors": ["src/meta_rules/node.rs: Node::parse", "src/lib.rs: MetaData"]}
{"id": "C06", "title": "Token ranges lie inside the text", "statement": "Every token appended by a parse carries a range with offset + length at most the number of characters of the text, inside the range matched by the rule that emitted it.", "quantifier": "every syntax and text", "why_tests_cant": "ranges are computed by repeated consume/subtract over arbitrary nestings", "anchors": ["src/meta_rules/mod.rs: update", "src/meta_rules/node.rs: Node::parse", "src/meta_rules/lines.rs: Lines::parse"]}
{"id": "C07", "title": "Tokens come in source order", "statement": "In the appended tokens the end positions never decrease, and every token other than an EndNode starts at or after the end of each earlier token, so distinct properties never overlap in the source.", "quantifier": "every syntax and text", "why_tests_cant": "depends on all nestings and on backtracking", "anchors": ["src/meta_rules/node.rs", "src/meta_rules/sequence.rs", "src/meta_rules/repeat.rs", "src/meta_rules/separate_by.rs", "src/meta_rules/lines.rs"]}
{"id": "C08", "title": "Reported errors point inside the text", "statement": "When `parse` returns Err, the error range ends no later than the end of the text and does not start before the text.", "quantifier": "every syntax and text", "why_tests_cant": "errors are merged across all sub rules of arbitrary rule trees", "anchors": ["src/meta_rules/mod.rs: parse_with_indent, err_update, ret_err", "src/parse_error.rs"]}
{"id": "C09", "title": "The deepest error is the one reported", "statement": "When a parse fails, no elementary failure met while parsing (outside negative look-ahead and table look-up) ended further into the text than the error returned; on a tie in a select the later alternative is reported.", "quantifier": "every syntax built without Not and without table look-up rules, every text", "why_tests_cant": "must hold over all failing histories", "anchors": ["src/meta_rules/mod.rs: err_update, ret_err"]}
{"id": "C10", "title": "Select takes the first alternative that succeeds", "statement": "`{a b ...}` succeeds with exactly the data and length of the first alternative that succeeds at that position, and fails if and only if every alternative fails; an empty select is an error, not a crash.", "quantifier": "every list of alternatives, text and position", "why_tests_cant": "unbounded number of alternatives and arbitrary sub rules", "anchors": ["src/meta_rules/select.rs: Select::parse"]}
{"id": "C11", "title": "Sequence runs its rules one after the other", "statement": "`[a b ...]` succeeds if and only if each rule succeeds where the previous one stopped; length is the sum, data is the concatenation; it fails as soon as one fails.", "quantifier": "every list of sub rules, text and position", "why_tests_cant": "unbounded length and arbitrary sub rules", "anchors": ["src/meta_rules/sequence.rs: Sequence::parse"]}
{"id": "C12", "title": "Optional never fails", "statement": "`?rule` always succeeds: with the data and length of the rule if the rule succeeds, otherwise with no data and no text read.", "quantifier": "every sub rule, text, position", "why_tests_cant": "arbitrary sub rules with partial side effects", "anchors": ["src/meta_rules/optional.rs: Optional::parse"]}
{"id": "C13", "title": "Not is pure look-ahead", "statement": "`!rule` succeeds exactly when the rule fails; when it succeeds it reads no text and emits no data, and when it fails the error quotes the text the rule read.", "quantifier": "every sub rule, text, position", "why_tests_cant": "the sub rule may write tokens before failing or succeeding", "anchors": ["src/meta_rules/not.rs: Not::parse"]}
{"id": "C14", "title": "Repeat reads as many as possible", "statement": "`.r?`/`.r!` apply the rule repeatedly until it fails, concatenating the data; `.r?` never fails, `.r!` fails exactly when the first application fails.", "quantifier": "every sub rule, text, position, any number of repetitions", "why_tests_cant": "unbounded repetition", "anchors": ["src/meta_rules/repeat.rs: Repeat::parse"]}
{"id": "C15", "title": "SeparateBy alternates rule and separator", "statement": "`.s` reads rule, separator, rule, ... ; it stops successfully when a separator fails; a rule failing after a separator is an error unless trailing is allowed; a rule failing at the start is an error unless optional; with trailing allowed the trailing separator is consumed.", "quantifier": "every pair of rules, flags, text, any number of items", "why_tests_cant": "unbounded repetition over arbitrary rules", "anchors": ["src/meta_rules/separate_by.rs: SeparateBy::parse"]}
{"id": "C16", "title": "Tag rules match literally and set the documented flag", "statement": "`\"t\"` succeeds exactly when the text at this position starts with t and reads just t; `!\"t\"` succeeds exactly when it does not and reads nothing; a named tag emits one Bool, true or (inverted) false; an unnamed one emits nothing.", "quantifier": "every tag text, document text, flag combination", "why_tests_cant": "all strings including multi-byte and empty", "anchors": ["src/meta_rules/tag.rs: Tag::parse"]}
{"id": "C17", "title": "Until-rules read the longest run without a stop character", "statement": "`...any` (resp. `..any`) reads the longest prefix containing none of the characters (resp. and no whitespace), stores exactly that text, and fails only if the prefix is empty and the rule is not optional.", "quantifier": "every stop set, text, flags", "why_tests_cant": "all strings", "anchors": ["src/meta_rules/until_any.rs: UntilAny::parse", "src/meta_rules/until_any_or_whitespace.rs: UntilAnyOrWhitespace::parse"]}
{"id": "C18", "title": "Whitespace rule reads all whitespace", "statement": "`.w` reads exactly the longest whitespace prefix, emits nothing, and fails only for `.w!` with no whitespace present.", "quantifier": "every text and position", "why_tests_cant": "all strings", "anchors": ["src/meta_rules/whitespace.rs: Whitespace::parse"]}
{"id": "C19", "title": "Text rule reads one quoted string", "statement": "`.t` succeeds only on text starting with a double quote, reads exactly the quoted string and stores its unescaped content; `.t!` rejects exactly the literal of two quotes; an invalid escape or a missing string is an error. Writing any string with the JSON writer and reading it back with `.t?` yields the same string.", "quantifier": "every text; every string for the round trip", "why_tests_cant": "all strings and escapes", "anchors": ["src/meta_rules/text.rs: Text::parse", "src/json.rs: write_string"]}
{"id": "C20", "title": "A named node wraps its data, an unnamed one lifts it", "statement": "`node:name` emits StartNode(name) at the position where the node starts, then the data of the referenced rule, then EndNode(name) with the range of the whole node; `node` emits just the data; both read what the referenced rule reads and fail when it fails.", "quantifier": "every syntax, recursive references included, and every text", "why_tests_cant": "recursion depth is unbounded", "anchors": ["src/meta_rules/node.rs: Node::parse"]}
{"id": "C21", "title": "Lines puts each item on its own line", "statement": "`.l(rule)` skips blank lines, applies the rule at the start of each non-blank line, stops successfully at the first line whose item fails (leaving that line unread) or at the end of text, and reports ExpectedNewLine when an item is followed by something else on the same line; data is the concatenation of the items.", "quantifier": "every rule, text and number of lines", "why_tests_cant": "unbounded number of lines and blank lines", "anchors": ["src/meta_rules/lines.rs: Lines::parse"]}
{"id": "C22", "title": "Indented lines form blocks", "statement": "`.l+(rule)` accepts a line as an item only if it carries the current indentation (tabs counting tab_spaces); with align_first the first line may be deeper and defines the indentation of the block; later lines that are deeper by a space or shallower end the block without being read; the rule is run with an indentation one deeper.", "quantifier": "every text, tab width, current indentation", "why_tests_cant": "all mixtures of spaces, tabs and depths", "anchors": ["src/meta_rules/lines.rs: Lines::parse", "src/meta_rules/indent_settings.rs: IndentSettings"]}
{"id": "C23", "title": "Indentation does not leak out of a rule", "statement": "After a rule has been tried, succeeded or failed, the indentation in force for the next rule is the one that was in force before. (Expected by users of `[.l+(a) .l+(b)]` and of alternatives; the code keeps the aligned indentation.)", "quantifier": "every rule, text and indentation", "why_tests_cant": "needs all histories of alternatives", "anchors": ["src/meta_rules/lines.rs: Lines::parse lines 65-78, 86-103"]}
{"id": "C24", "title": "Unresolved or resolved references behave as documented", "statement": "update_refs points each reference to the first rule with that name, leaves references to unknown names and already resolved references alone, and is idempotent; parsing through an unresolved reference is an InvalidRule error and not a crash.", "quantifier": "every syntax, names with duplicates included", "why_tests_cant": "arbitrary rule trees and name lists", "anchors": ["src/meta_rules/rule.rs: Rule::update_refs", "src/meta_rules/mod.rs: update_refs", "src/meta_rules/node.rs: Node::parse"]}
{"id": "C25", "title": "Parsing terminates for well-formed syntaxes", "statement": "If no rule can reach itself without reading a character and no repetition repeats a rule that can succeed without reading, then parse returns for every text; a repetition of a rule that can succeed on nothing (such as `.r?(.w?)`) never returns.", "quantifier": "every syntax with that property and every text", "why_tests_cant": "termination on all texts is not testable", "anchors": ["src/meta_rules/repeat.rs: Repeat::parse", "src/meta_rules/separate_by.rs: SeparateBy::parse", "src/meta_rules/node.rs: Node::parse", "src/meta_rules/lines.rs"]}
{"id": "C26", "title": "Parsing does not panic on resolved syntaxes", "statement": "For a syntax whose references are in range and whose table look-ups are consistent (such as any syntax returned by `syntax`), parse never panics on any text, provided the text is too short to overflow the indentation counter.", "quantifier": "every such syntax and every text", "why_tests_cant": "index and overflow panics depend on all inputs", "anchors": ["src/meta_rules/node.rs: refs[index]", "src/meta_rules/fast_select.rs: self.args[ind]", "src/meta_rules/lines.rs: indent += 1"]}
{"id": "C27", "title": "Optimizing a syntax does not change what it parses", "statement": "For every text, the optimized syntax accepts exactly the texts the original accepts and yields the same data. (False at end of text when a select ends in an alternative that can match nothing; true when no such alternative exists.)", "quantifier": "every syntax and every text", "why_tests_cant": "equivalence of two parsers on all texts", "anchors": ["src/optimize.rs: optimize_rule, unique_table_from_select", "src/lib.rs: Syntax::optimize", "src/meta_rules/fast_select.rs: FastSelect::parse"]}
{"id": "C28", "title": "Optimizing does not move the error", "statement": "When both the original and the optimized syntax reject a text, the reported errors end at the same character.", "quantifier": "every syntax without alternatives that match nothing at end of text, every text", "why_tests_cant": "equivalence on all failing texts", "anchors": ["src/optimize.rs: optimize_rule", "src/meta_rules/fast_select.rs: FastSelect::parse"]}
{"id": "C29", "title": "The unique byte is sound", "statement": "If `unique_byte(rule)` is Some(b), then the rule fails on every text that does not start with byte b (the empty text included), without side effects on indentation.", "quantifier": "every rule, syntax and text", "why_tests_cant": "all texts and rule trees", "anchors": ["src/optimize.rs: unique_byte"]}
{"id": "C30", "title": "The look-up table is exact", "statement": "`unique_table_from_select` returns a table that sends the unique byte of each of the first unique_up_to alternatives to that alternative's index and every other byte to 255, with unique_up_to at most 255 and at most the number of alternatives, and maximal.", "quantifier": "every select and syntax", "why_tests_cant": "lists of any length, more than 255 included", "anchors": ["src/optimize.rs: unique_table_from_select"]}
{"id": "C31", "title": "Optimizing terminates unless the syntax is left recursive", "statement": "optimize returns for every syntax in which following first sub rules never comes back to the same node; for a node that refers to itself first (such as `1 a = a` inside a select) it never returns.", "quantifier": "every syntax", "why_tests_cant": "recursion through references is unbounded", "anchors": ["src/optimize.rs: unique_byte"]}
{"id": "C32", "title": "JSON strings are written faithfully", "statement": "write_string is injective, its output starts and ends with a quote and contains no other unescaped quote, and a JSON reader gives back the original string; it is strictly valid JSON if and only if the string has no control character other than newline, carriage return and tab.", "quantifier": "every string", "why_tests_cant": "all strings", "anchors": ["src/json.rs: write_string"]}
{"id": "C33", "title": "Written meta data is a JSON object body", "statement": "For well-nested data with finite numbers and plain strings, `{` + write(data) + `}` is a JSON document whose value is the tree of the data, members in order.", "quantifier": "every well-nested token sequence, any depth and length", "why_tests_cant": "unbounded trees, comma placement depends on context", "anchors": ["src/json.rs: write"]}
{"id": "C34", "title": "Writing JSON does not panic on parsed data", "statement": "write never underflows its indentation on data produced by a successful parse, and underflows exactly when some prefix closes more nodes than it opens plus the overall imbalance.", "quantifier": "every token sequence", "why_tests_cant": "all sequences", "anchors": ["src/json.rs: write lines 17-30"]}
{"id": "C35", "title": "Error messages show the right line and column", "statement": "For a text, the message written for an error starts its excerpt with the line number (1 + newlines before the error) and the column (1 + characters since the last newline) of the error, and puts the caret under that column. (True for ASCII; false after multi-byte characters, because lines are measured in bytes and errors in characters.)", "quantifier": "every text and error position", "why_tests_cant": "all texts and positions", "anchors": ["src/parse_error_handler.rs: ParseErrorHandler::new, write, write_msg"]}
{"id": "C36", "title": "Writing an error message never panics", "statement": "For every text and every error range, in or out of bounds, writing the message does not underflow or index out of range.", "quantifier": "every text, every range, every error", "why_tests_cant": "all inputs including multi-byte text and ranges of other texts", "anchors": ["src/parse_error_handler.rs: write, write_msg"]}
{"id": "C37", "title": "Converting meta data terminates and does not panic", "statement": "`bootstrap::convert` returns Ok or Err on every well-nested token sequence, in particular on everything `parse` produces. (On a sequence that ends inside a node it loops for ever, on a stray EndNode it underflows.)", "quantifier": "every well-nested token sequence", "why_tests_cant": "all token sequences, any nesting", "anchors": ["src/bootstrap/convert.rs: convert, Convert::ignore"]}
{"id": "C38", "title": "Convert reads every rule faithfully", "statement": "Encoding any rule tree as meta data in the documented shape and converting it returns that rule tree with the strings resolved, whatever its depth.", "quantifier": "every rule tree without table look-up, every syntax", "why_tests_cant": "unbounded depth and all rule combinations", "anchors": ["src/bootstrap/convert.rs: convert::read_rule and friends"]}
{"id": "C39", "title": "Debug ids identify the node", "statement": "Every rule inside a node numbered n gets a distinct debug id between 1000n+1 and 1000n+k where k is the number of rules in the node, so dividing by 1000 gives n when the node has fewer than 1000 rules.", "quantifier": "every converted syntax", "why_tests_cant": "unbounded rule trees", "anchors": ["src/bootstrap/convert.rs: read_node line 860 and *debug_id += 1", "README.md: Rules"]}
{"id": "C40", "title": "String references are resolved or reported", "statement": "A rule that uses a string `_name` gets the text of the first definition of that name. (A rule using an undefined string is silently dropped from its sequence or select instead of being reported.)", "quantifier": "every list of definitions and every use", "why_tests_cant": "all definition lists, shadowing included", "anchors": ["src/bootstrap/convert.rs: find_string, read_set"]}
{"id": "C41", "title": "The dot of `.s?.(by rule)` has no effect: a trailing separator is always allowed", "statement": "The documentation says that trailing separators are allowed only with the dot form. The opposite holds: the converter allows them by default, so in every syntax read from text every separated list allows a trailing separator, with and without the dot.", "quantifier": "every separated_by rule of every syntax read from text", "why_tests_cant": "concerns every text parsed with such a rule", "anchors": ["src/bootstrap/convert.rs: read_separated_by line 657", "src/lib.rs: rule table", "assets/self-syntax.txt"]}
{"id": "C42", "title": "Convert helpers move over exactly one item", "statement": "Convert::ignore spans exactly the next item, or the whole node if the item starts one; update moves past exactly that span; source returns the union of the source ranges and never underflows on parsed data.", "quantifier": "every well-nested token sequence and position", "why_tests_cant": "unbounded nesting", "anchors": ["src/bootstrap/convert.rs: Convert"]}
{"id": "C43", "title": "Search finds the first match", "statement": "for_string/for_f64/for_bool/for_node/for_end_node call the closure once, on the data after the first matching item, or return an error at the previous range without calling it if there is none; numbers compare as IEEE floats, so NaN is never found.", "quantifier": "every data slice, name and value", "why_tests_cant": "slices of any length", "anchors": ["src/search/src/lib.rs: Search::for_*"]}
{"id": "C44", "title": "Sequential reading is all or nothing", "statement": "bool/f64/string/node/end_node either match the next item by kind and name, return its value and advance by one, or return an error and leave the search unchanged.", "quantifier": "every search state and name", "why_tests_cant": "all states", "anchors": ["src/search/src/lib.rs: Search::bool, f64, string, node, end_node"]}
{"id": "C45", "title": "Syntax equality is sound but not reflexive", "statement": "If two rules compare equal they behave the same; a rule compares equal to itself if and only if it contains no table look-up rule, so an optimized syntax may differ from itself.", "quantifier": "every pair of rules", "why_tests_cant": "all rule trees", "anchors": ["src/meta_rules/fast_select.rs: PartialEq", "src/meta_rules/rule.rs: derive(PartialEq)"]}
{"id": "C46", "title": "Reading a syntax returns for every text", "statement": "Parsing any text with the bootstrap rules terminates without panicking and yields well-nested data on which convert terminates; `syntax` can only fail to return if the rules read are left recursive, and only panic when a node number is too large to be multiplied by 1000.", "quantifier": "every text given to `syntax`", "why_tests_cant": "all texts", "anchors": ["src/lib.rs: syntax", "src/bootstrap/rules.rs: rules", "src/bootstrap/convert.rs"]}
{"id": "C47", "title": "Parsing is position independent", "statement": "Running a rule on the same remaining text at another offset gives the same result with all ranges (data and errors) moved by the difference.", "quantifier": "every rule, text and pair of offsets", "why_tests_cant": "all inputs", "anchors": ["src/meta_rules/rule.rs: Rule::parse", "all rules"]}
{"id": "C48", "title": "The vector protocol of read_data", "statement": "Over any sequence of reads and rewinds, the tokens up to the current state are exactly those recorded on the path that led to the state.", "quantifier": "every history of read_data calls and rewinds", "why_tests_cant": "all histories", "anchors": ["src/tokenizer.rs: read_data, TokenizerState"]}
{"id": "C49", "title": "The hard-coded rules read their own description", "statement": "For every rule tree printed in the meta language, `syntax` returns that rule tree.", "quantifier": "every rule tree", "why_tests_cant": "all rule trees, any depth", "anchors": ["src/bootstrap/rules.rs", "src/bootstrap/convert.rs", "assets/self-syntax.txt"]}
{"id": "C50", "title": "Meta data equality is float equality", "statement": "Two items of meta data compare equal if and only if they have the same kind, name and value, where values that are not a number are equal to nothing and the two zeros are equal; so an item is equal to itself if and only if it is not a NaN.", "quantifier": "every pair of items", "why_tests_cant": "all items and all floats", "anchors": ["src/lib.rs: MetaData derive(PartialEq), line 171"]}
{"id": "C51", "title": "The shape of the data is determined by the rules", "statement": "The meta data produced for an accepted text, without the ranges, is derivable from the last rule by a grammar that mentions no text: each rule contributes the items its definition names, in the order of the rules, a named reference wraps the data of the rule it refers to, and nothing else occurs.", "quantifier": "every syntax, text, vector, indentation setting and lexer", "why_tests_cant": "all texts and all syntaxes; readers of the data rely on its shape", "anchors": ["src/meta_rules/*.rs: calls of read_data", "src/meta_rules/node.rs: 31-60"]}
{"id": "C52", "title": "syntax_errstr and load_syntax_data are syntax, parse and the report", "statement": "syntax_errstr returns Ok with the syntax that syntax returns, or Err with the report of the error of syntax; it returns whenever syntax does and never panics by itself. load_syntax_data returns the data that parse returns with the syntax read from the first file, or writes the report of the first error with the text it is in.", "quantifier": "every text, every pair of texts, every lexer", "why_tests_cant": "all texts, including those with errors in the syntax and in the data", "anchors": ["src/lib.rs: syntax_errstr (233-242), load_syntax_data (247-266)", "src/parse_error_handler.rs: stderr_unwrap (7-15)"]}
{"id": "C53", "title": "The notation of the meta language is exactly what the hard-coded rules accept", "statement": "A text is accepted by the hard-coded rules with the data of a document if and only if it stands for that document in the notation; every other text makes `syntax` return an error; `syntax` returns rules exactly when the text stands for a document whose strings are defined, and then returns the optimized rules of that document.", "quantifier": "every text, every document", "why_tests_cant": "a test shows single texts that are accepted or rejected, not that no other text is accepted", "anchors": ["src/bootstrap/rules.rs", "src/bootstrap/convert.rs", "src/meta_rules/lines.rs", "assets/self-syntax.txt"]}
{"id": "C54", "title": "Which place an error message shows", "statement": "For every text, the excerpt of an error message shows the line in which the byte with the number of the error's offset is, and the column of that byte; this is the place of the error if and only if all characters in the lines before the line of the error have one byte.", "quantifier": "every text, every error offset", "why_tests_cant": "all texts and positions; the exact condition needs both directions", "anchors": ["src/parse_error_handler.rs: ParseErrorHandler::new, write, write_msg"]}
{"id": "C55", "title": "What optimizing changes, exactly", "statement": "For every syntax, the optimized syntax does what the original does when, in each select that becomes a table look-up with a tail, the alternatives outside the table are not tried at the end of the text: it accepts the same texts with the same data, rejects the same texts with an error that ends at the same character, and runs for ever on the same texts. Nothing else changes.", "quantifier": "every syntax that can be optimized, every text", "why_tests_cant": "a test compares the two syntaxes on single texts; the claim needs no condition on the syntax and names the only difference", "anchors": ["src/optimize.rs: optimize_rule, unique_table_from_select, unique_byte", "src/meta_rules/fast_select.rs: FastSelect::parse"]}
{"id": "C56", "title": "Errors tell the truth", "statement": "Every elementary failure met while a text is rejected, and so the error that is returned, is true of the text: either the syntax has no rules, or the last rule matched up to the reported place and there is more text, or the syntax contains a rule with the reported debug id, of the kind that reports such errors, and at the reported place the text lacks what the error says was expected, or has what it says was not expected.", "quantifier": "every syntax, text, indentation setting and lawful lexer", "why_tests_cant": "errors are combined and replaced along every backtracking history; a test sees one error of one text", "anchors": ["src/meta_rules/whitespace.rs: parse", "src/meta_rules/tag.rs: parse", "src/meta_rules/until_any.rs: parse", "src/meta_rules/until_any_or_whitespace.rs: parse", "src/meta_rules/text.rs: parse", "src/meta_rules/number.rs: parse", "src/meta_rules/select.rs: parse", "src/meta_rules/fast_select.rs: parse", "src/meta_rules/lines.rs: parse", "src/meta_rules/node.rs: parse", "src/meta_rules/not.rs: parse", "src/meta_rules/mod.rs: parse_with_indent", "src/parse_error.rs: ParseError"]}
{"id": "C57", "title": "Every item comes from a rule and from the text at its range", "statement": "Every item that a successful parse adds was recorded by a rule of the syntax that carries the name of the item, and the text at the range of the item is what that rule reads: the tag (or its absence) for a bool, the longest run of allowed characters or the string for a string, the number for a number, what the referenced rule reads for the end of a node.", "quantifier": "every syntax, text, indentation setting and lawful lexer", "why_tests_cant": "items of failed alternatives are left in the vector and overwritten; that none of them survives with a wrong range or value has to hold for every history", "anchors": ["src/meta_rules/tag.rs: parse", "src/meta_rules/until_any.rs: parse", "src/meta_rules/until_any_or_whitespace.rs: parse", "src/meta_rules/text.rs: parse", "src/meta_rules/number.rs: parse", "src/meta_rules/node.rs: parse", "src/tokenizer.rs: read_data"]}
{"id": "C58", "title": "What becomes of the indentation", "statement": "With align_first, a block `.l+(rule)` leaves behind an indentation that depends on the text only, not on the rule and not on whether it matches: if the first line that is not blank carries the current indentation, the columns of the spaces and tabs after that are added, otherwise nothing changes. Nothing but blocks of the syntax changes the indentation, so it never changes in a text without spaces and tabs.", "quantifier": "every lawful lexer, rule of a syntax, position, text and indentation setting", "why_tests_cant": "blocks are tried inside alternatives, repetitions and look-ahead; the claim says what is left behind by every combination of them", "anchors": ["src/meta_rules/lines.rs: parse", "src/meta_rules/indent_settings.rs"]}
{"id": "C59", "title": "Laws of rules", "statement": "Rules obey these laws, at every position, with the same characters read, data, indentation and error: {a} = a; [a] = a; nested sequences may be flattened; nested non-empty selects may be flattened; alternatives after one that is never refused may be dropped; ?a = {a []}; ?(?a) = ?a; .r!(a) = [a .r?(a)]; .r?(a) = ?(.r!(a)); an unnamed resolved reference = the rule referred to. These are not laws: {a b} = {b a}; .s?(b a) = ?(.s!(b a)).", "quantifier": "all rules a, b and lists of rules, every text, position, setting and lexer", "why_tests_cant": "a law quantifies over all sub-rules, including those that fail half-way, change the indentation or emit data before failing", "anchors": ["src/meta_rules/select.rs: parse", "src/meta_rules/sequence.rs: parse", "src/meta_rules/optional.rs: parse", "src/meta_rules/repeat.rs: parse", "src/meta_rules/separate_by.rs: parse", "src/meta_rules/node.rs: parse"]}
{"id": "C60", "title": "Equal rules may replace each other anywhere", "statement": "If a syntax is changed by replacing parts of its rules, at any depth and in any number of places, by rules that do the same, then it accepts the same texts with the same data, rejects the same texts with the same error, and runs for ever on the same texts.", "quantifier": "every syntax, replacement and text", "why_tests_cant": "the replaced parts sit below backtracking, look-ahead, indentation and references; equality of the parts has to survive every context", "anchors": ["src/meta_rules/rule.rs: Rule::parse", "src/meta_rules/mod.rs: parse_with_indent, err_update, ret_err"]}
{"id": "C61", "title": "Debug ids only matter for messages", "statement": "If a syntax is changed only in the debug ids of its rules, and in the names of references that are already resolved, then it accepts the same texts with the same data, rejects the same texts with the same kind of error at the same place, runs for ever on the same texts, and is optimized to the same rules. The debug id of the error changes like the debug id of the rule that reports it.", "quantifier": "all pairs of syntaxes that differ in ids and resolved names only, every text, setting and lexer", "why_tests_cant": "ids are copied through every rule and through the optimizer; that none of them influences what is read has to be shown for all rules and texts", "anchors": ["src/meta_rules/mod.rs: parse_with_indent, update, err_update, ret_err", "src/meta_rules/rule.rs: Rule::parse", "src/optimize.rs: optimize_rule", "src/parse_error.rs: ParseError"]}
{"id": "C62", "title": "The message says which error it is", "statement": "Different errors have different messages: the message determines the kind of the error, its debug id and its contents. The message of an error with a debug id, and of no other, begins with `#`, the id in decimal and a comma. An expected tag, or a tag that was not expected, is shown between backquotes. The report of an error begins with its message.", "quantifier": "all errors, debug ids, tags and texts; the messages of the external crate are arbitrary but different for different errors", "why_tests_cant": "all pairs of errors, and all tags, including those that look like part of a message", "anchors": ["src/parse_error.rs: Display for ParseError", "src/parse_error_handler.rs: ParseErrorHandler::write"]}
{"id": "C63", "title": "The meta language reads its own description and gets the hard-coded rules", "statement": "assets/self-syntax.txt is in the notation of the meta language. `syntax` returns rules for it, and these are the rules with which `syntax` itself reads: the same rules in the same order under the same names, up to debug ids, which stay within the thousand of the same rule. So the returned rules accept exactly the texts that the hard-coded bootstrap rules accept, with the same data, and they reject the others with an error at the same place; `syntax` reports the same error as they do, up to the debug id.", "quantifier": "the one text assets/self-syntax.txt as rules; all texts read with these rules; every lawful lexer that reads the numbers 0 to 22 as these numbers", "why_tests_cant": "a test can compare the data of one text under both rules (examples/bootstrap.rs compares the rules that both get from the file itself); that both rule sets agree on every text needs equality of the rules and the proof that ids do not matter", "anchors": ["assets/self-syntax.txt", "src/bootstrap/rules.rs: rules", "src/lib.rs: syntax", "src/bootstrap/convert.rs: convert"]}
{"id": "C64", "title": "Exactly when the optimizer and syntax return, panic, and run for ever", "statement": "The optimizer never panics on a syntax with indices in range; it runs for ever exactly if some select outside of a table has an alternative from which unique_byte comes back to the same rule, and the alternatives before it, fewer than 255, have different unique bytes. `syntax` panics exactly on the texts in the notation whose node numbers lead to debug ids that do not fit into a usize (counting only the nodes up to the first without a rule); it runs for ever exactly on the other texts in the notation on whose rules the optimizer runs for ever; it returns an error exactly for the texts that are not in the notation and for those in which the rule of a node depends on an undefined string; for all other texts it returns rules.", "quantifier": "all syntaxes with indices in range; all texts; every lawful and exact lexer", "why_tests_cant": "running for ever cannot be observed, and the set of texts with each outcome is infinite", "anchors": ["src/lib.rs: syntax, Syntax::optimize", "src/optimize.rs: unique_byte, unique_table_from_select, optimize_rule", "src/bootstrap/convert.rs: convert, read_node, read_rule"]}
{"id": "C65", "title": "parse_errstr reports exactly the error of parse", "statement": "`parse_errstr_with_indent` succeeds exactly on the texts that `parse_with_indent` accepts, and leaves the same data in the vector; on the texts that it rejects it returns the report of that error, and the vector as the rejecting parse left it. Writing the report adds no panic and no endless run: it panics exactly when `parse_with_indent` does and runs for ever exactly when it does. The report begins with the text of the error, and shows its line and column with a caret below when the lines before it have single-byte characters only. `load_syntax_data` gives what `syntax_errstr` on the first file and then `parse_errstr` on the second give.", "quantifier": "all syntaxes, texts, vectors of data and indent settings; all messages of the external crates; every lexer, lawful for the place", "why_tests_cant": "equality of outcomes for all syntaxes and texts, including endless runs; absence of panics in the report for any range", "anchors": ["src/meta_rules/mod.rs: parse_errstr, parse_errstr_with_indent", "src/parse_error_handler.rs: ParseErrorHandler::write", "src/lib.rs: load_syntax_data, syntax_errstr"]}
{"id": "C66", "title": "The bootstrapping programs: one assertion holds, the other fails", "statement": "examples/bootstrap.rs, run on assets/self-syntax.txt, reads it with the hard-coded rules, reads it again with the rules just read, and reads it once more: both readings are accepted, convert to rules, and the assertion that the rules are the same holds. examples/bootstrap_old.rs: assets/old-syntax.txt is in the notation, `syntax` returns its rules, these rules accept assets/old-self-syntax.txt, the data convert to the rules that assets/old-syntax.txt stands for, and the assertion fails, since `syntax` has put tables into the rules, which equal nothing. In general this assertion can only hold when the rules returned for the first text have no table in any part. Whatever the texts are, the programs end exactly as the calls of `syntax`, `parse`, `convert` and `==` they consist of say.", "quantifier": "bootstrap.rs: every lawful lexer that does not read a slash as a number and reads the node numbers; bootstrap_old.rs: the failing of the assertion for every such lexer and every second text, reaching it for the documented behaviour of the lexer; the characterisations for all texts", "why_tests_cant": "the tests of the repository do not run the examples; that no second text can satisfy the assertion is a statement over all texts", "anchors": ["examples/bootstrap.rs: main", "examples/bootstrap_old.rs: main", "assets/self-syntax.txt", "assets/old-syntax.txt", "assets/old-self-syntax.txt", "src/meta_rules/fast_select.rs: PartialEq"]}
{"id": "C67", "title": "What the example programs hello_world and neg_match write, for every text", "statement": "examples/hello_world.rs writes the name as JSON exactly for the texts `hi`, any space, `James` or `Peter`, `!`; for any other text it writes the report of one error, which is determined by the text: the expected `hi` (#1001) at the start, the missing name (#1005 when neither J nor P follows the space, #1003 or #1004 when the name is not spelled out), the expected `!` (#1006) behind the name, or the expected end. examples/neg_match.rs writes the JSON of its flag exactly for the texts that do not begin with `hi`, and otherwise the report that `hi` was not expected, followed by the JSON of no data. With any rules and any text, both programs write the report about the rules, or else the report about the text, or else the JSON of the data.", "quantifier": "all texts, all messages of the external crates, every lawful lexer that does not read a slash as a number and reads the node numbers; the characterisation of the programs for all rules", "why_tests_cant": "all texts, and the one error for each rejected text", "anchors": ["examples/hello_world.rs: main", "examples/neg_match.rs: main", "src/json.rs: print", "src/lib.rs: syntax_errstr", "src/meta_rules/mod.rs: parse_errstr"]}
{"id": "C68", "title": "examples/indent.rs reads every tree from its indented text", "statement": "For every tree of numbers and every way to lay it out - each node on its own line, the children of a node in one column further right than the node (for the children of the root any column), blank lines and space anywhere between, before and behind - the rules of examples/indent.rs accept the text, the data is that of the tree, and the program writes its JSON.", "quantifier": "all trees of any depth and width, all layouts with columns below 2^32-1, every lawful lexer that reads the numbers of the tree and of the rules and goes on behind an item that has read the new line itself", "why_tests_cant": "trees and layouts are infinitely many; the one example text has six nodes", "anchors": ["examples/indent.rs: main", "src/meta_rules/lines.rs: Lines::parse", "src/meta_rules/mod.rs: parse_errstr, IndentSettings", "src/json.rs: print"]}
{"id": "C69", "title": "Which texts examples/indent.rs accepts", "statement": "A text without tabs is accepted by the rules of examples/indent.rs exactly if, apart from space around it, it is the text of a tree: a number followed by its children, all in one column that is further right than the line of the parent requires, each on its own line; only the first child may also stand on the line of its parent, its column then being counted from the end of the parent's number. The data is that of the tree. Every other text is rejected with an error (unless it is so long that columns might overflow).", "quantifier": "all texts without tabs, every lawful and exact lexer that reads the numbers of the rules, writes numbers without space and goes on behind an item that has read the new line itself", "why_tests_cant": "both directions over all texts; the program has one text", "anchors": ["examples/indent.rs: main", "src/meta_rules/lines.rs: Lines::parse", "src/meta_rules/mod.rs: parse_errstr, IndentSettings"]}
{"id": "C70", "title": "How deep the recursion of parsing goes", "statement": "With a syntax in which no rule leads back to itself without reading and every loop reads something, the calls of Rule::parse that are open at the same time during parse_with_indent are at most (number of rules in the syntax, inner ones included, + 1) * (number of characters + 1); for the hard-coded rules at most 181 * (n + 1). The bound is of the right order: a rule file with k comments opened and not closed needs at least 5 * k levels, so no fixed stack is enough for all rule files. The calls counted are exactly the calls made: the result depends on no other calls, and on each of them returning.", "quantifier": "all well-formed syntaxes, all texts, all token vectors and indentation settings, every lawful lexer", "why_tests_cant": "a bound for all texts and all syntaxes; tests do not measure the stack", "anchors": ["src/meta_rules/rule.rs: Rule::parse", "src/meta_rules/mod.rs: parse_with_indent", "src/bootstrap/rules.rs: rules"]}
{"id": "C71", "title": "Unclosed comments take exponential time", "statement": "A rule file that opens comments k times, each time followed by at least one other character and never closed, makes the hard-coded rules call Rule::parse at least 2^k times before the file is rejected; so for every k > 0 there is a file of 3 * k characters for which parse (and so syntax) needs at least 2^k calls.", "quantifier": "all numbers of openings, all fillers without * and /, all token vectors and indentation settings, every lawful lexer", "why_tests_cant": "a growth rate over an infinite family of texts; the tests have one or two levels", "anchors": ["src/bootstrap/rules.rs: multi_line_comment", "src/meta_rules/select.rs: Select::parse", "src/meta_rules/repeat.rs: Repeat::parse"]}
{"id": "C72", "title": "What the optimizer makes of a syntax; optimizing twice is optimizing once", "statement": "optimize puts a table in the place of exactly those selects of which at least the first two alternatives begin with different bytes that can be seen from the rules (a token, a string in quotes, through sequences, references, lists and repetitions that are not optional, selects of one alternative and double negation); the alternatives outside the table make one more alternative, and everything else is left as it is, names included. Optimizing an optimized syntax returns it unchanged; in particular calling optimize on what syntax returns has no effect.", "quantifier": "all syntaxes", "why_tests_cant": "the tests look at three tables; nothing compares an optimized syntax with itself (== is false on tables, C45)", "anchors": ["src/optimize.rs: optimize_rule", "src/optimize.rs: unique_byte", "src/optimize.rs: unique_table_from_select", "src/lib.rs: Syntax::optimize"]}
{"id": "C73", "title": "What convert reads from any well nested meta data", "statement": "On well nested meta data bootstrap::convert returns exactly what the tree of the data stands for, defined without a cursor, attempts and cut offs: strings first, then nodes; in every node the last field of a name counts; the result, the debug ids of all rules, the ranges appended to ignored and their order are given. It panics if and only if an id does not fit in 64 bits. In until_any_or_whitespace, until_any, tag, text, number, reference, sequence, select, separated_by, repeat and node an item with an unknown name changes nothing and its range is reported; in whitespace, optional, not, lines, rule, string and the texts (value, ref) it makes the whole item unreadable.", "quantifier": "all well nested lists of meta data, all initial values of ignored", "why_tests_cant": "the tests convert a few hand written documents and never look at ignored; the data here ranges over all trees with unknown, repeated, missing and misplaced items", "anchors": ["src/bootstrap/convert.rs: convert", "src/bootstrap/convert.rs: read_rule", "src/bootstrap/convert.rs: read_node", "src/bootstrap/convert.rs: read_string", "src/bootstrap/convert.rs: Convert::ignore"]}
{"id": "C74", "title": "Writers that report errors", "statement": "json::write, json::write_string, ParseErrorHandler::write and write_msg give the writer the text they stand for, in pieces that do not depend on the writer. They return the first error of the writer and give it nothing more; what is in a writer that keeps its text is then the first part of the text, and the whole text if Ok(()) is returned. They do not panic because of the writer; a write to a vector has no error. json::print and ParseErrorHandler::error panic exactly if the writer reports an error. stderr_unwrap returns the value unchanged and never returns for an error.", "quantifier": "all writers (any state, any error, at any piece), all ways of cutting the text of a write! into pieces, all data, texts, ranges and errors", "why_tests_cant": "the tests write to vectors only, which have no errors", "anchors": ["src/json.rs: write", "src/json.rs: write_string", "src/json.rs: print", "src/parse_error_handler.rs: ParseErrorHandler::write", "src/parse_error_handler.rs: ParseErrorHandler::write_msg", "src/parse_error_handler.rs: stderr_unwrap"]}
{"id": "C75", "title": "load_syntax_data with files", "statement": "load_syntax_data returns data exactly if both files can be read, the rules are correct and the data is accepted; the data is what parse gives, and nothing is written to the standard error output. The file of data is opened exactly if the rules are correct, so an error in the rules is reported whether or not the data exists. Errors of rules and data are reported on the standard error output before the panic; files that cannot be read panic and nothing is written.", "quantifier": "all files, paths, standard error outputs and lexers", "why_tests_cant": "no test calls load_syntax_data", "anchors": ["src/lib.rs: load_syntax_data", "src/parse_error_handler.rs: stderr_unwrap"]}
{"id": "C76", "title": "Version 1.0 of the meta language is still read, with the same meaning; tests/lib.rs", "statement": "assets/self-syntax-1.0.txt and assets/new-self-syntax.txt stand for the same document, and syntax returns the hard-coded rules for them but for the rule `lines`, up to ids of the same rule. These rules accept exactly the texts that stand for a document without `.l+`, with the data of that document, which is the data the hard-coded rules give; they reject all other texts and never run for ever. use_new_self_syntax of tests/lib.rs returns data exactly if the rules stand for a document without `.l+` whose strings are defined and whose ids are small, and the data is what parse gives with the rules as they are, not optimized; use_old_self_syntax is load_syntax_data. They agree on rules without `.l+` if the optimizer does not change what the rules accept. All six tests of tests/lib.rs pass, two of them by a panic with the expected message.", "quantifier": "all texts of rules, all texts, all lexers (Lawful, Exact, numbers 0 to 22 read); the six tests with the lexer of Model/StdLexer", "why_tests_cant": "the tests read two texts of rules with the older rules, and both without `.l`", "anchors": ["assets/self-syntax-1.0.txt", "assets/new-self-syntax.txt", "tests/lib.rs: use_new_self_syntax", "tests/lib.rs: use_old_self_syntax", "src/bootstrap/rules.rs: rules"]}
{"id": "C77", "title": "What examples/key_value.rs reads and writes", "statement": "syntax returns rules for the text of rules in examples/key_value.rs; they accept exactly the texts made of comments and pairs of a key and a value, each ending its line, with space anywhere between, and give the key and the value of each pair in order; a value is the first of number, true or false, quoted string and word that can be read, and it is never read in another way if it does not end its line, so a date is rejected; every other text is rejected. The example writes one JSON member on each line for an accepted text, and panics after a report for any other. Lines `key = value` are read back, whatever the keys and values.", "quantifier": "all texts, all lists of entries, all lexers that are Lawful and Exact and read numbers without space", "why_tests_cant": "the example has one text, its output is in a comment, and nothing checks it", "anchors": ["examples/key_value.rs: main", "src/meta_rules/lines.rs: parse", "src/meta_rules/select.rs: parse", "src/json.rs: write"]}
{"id": "C78", "title": "What the benchmarks measure", "statement": "None of the benchmarks panics, and the data each gives is known. The rules of the five benchmarks that greet accept exactly `hi`, space, a name they know and `!`, and with the tail any other word without `!`; a word that only begins with a name they know is rejected and not tried as another word. The rules of bench_deep_string accept exactly words with space between them up to foo, where only the first word can begin with foo; parsing k words takes 6k calls of Rule::parse, of which 3k+1 are on the stack at once. Every other text makes the benchmark panic with a report. Optimizing the rules once more, as bench_hello_data does, changes nothing, whatever the rules and the text.", "quantifier": "all texts; all lawful lexers that read numbers and no slash; for the last, all rules", "why_tests_cant": "benchmarks are not run by cargo test and need a nightly compiler; each has one text and nothing looks at the data", "anchors": ["benches/bench.rs: bench_hello", "benches/bench.rs: bench_deep_string", "benches/bench.rs: bench_hello_data", "benches/bench.rs: bench_select_3", "benches/bench.rs: bench_select_5", "benches/bench.rs: bench_select_tail", "src/optimize.rs: optimize_rule"]}
{"id": "C79", "title": "What test_type tests", "statement": "The rules of the test test_type accept exactly f64 and thr in any number of pairs of brackets, and the data is a node arr for each pair with what is inside; any other text makes the test panic with a report. The test itself does not panic, whatever the lexer. syntax returns for these rules one FastSelect over the first bytes f, [ and t; parsing a type in k pairs of brackets takes 5k+2 calls of Rule::parse, of which 3k+2 are on the stack at once.", "quantifier": "all texts and all k; all lawful lexers that read the number 100 and no slash", "why_tests_cant": "the test has one text, [f64], and looks neither at the data nor at the rules after optimization", "anchors": ["src/optimize.rs: test_type", "src/optimize.rs: optimize_rule", "src/meta_rules/fast_select.rs: FastSelect::parse"]}
{"id": "C80", "title": "What the optimizer costs", "statement": "optimize_rule is called once for each part of a rule, but the parts in all alternatives but the first of a select with more than two alternatives, of which the first two do not begin with different bytes that can be seen, are optimized twice, because the first result is thrown away; so the number of calls doubles with each such select around a part. Without such selects there is one call for each rule; in general there are at least as many as rules and at most 2^d times as many, where d is how many such selects are nested; k nested selects of this kind, each in an alternative that is not the first, take at least 2^k calls. syntax returns the rules of the text 1 a = {.w? .w? {.w? .w? .. .w?}} of 10k+9 characters after 5*2^k-4 calls.", "quantifier": "all syntaxes that optimize returns for; all k (below 2^60, where ids fit a usize)", "why_tests_cant": "a test sees the result, which is the same; that the time is exponential shows only with deeply nested selects", "anchors": ["src/optimize.rs: optimize_rule", "src/lib.rs: Syntax::optimize", "src/lib.rs: syntax"]}
{"id": "C81", "title": "What a rejected text leaves in the vector", "statement": "The items that a rejected text leaves in the vector are appended to what the caller had, and are the same for every vector; they are exactly the data read so far on the way taken when the last item was recorded, and that item, nothing if none was recorded; each was recorded by a rule of the syntax that carries its name, and the text at its range is what that rule reads; they lie inside the text and are in source order; they are the beginning of well nested data, so no node is closed that is not open, and json::write writes them without panic, but a node may be left open; a later call that succeeds puts its data after them.", "quantifier": "every syntax, rejected text, vector, indentation setting and lawful lexer", "why_tests_cant": "what is left depends on every abandoned attempt before the failure", "anchors": ["src/tokenizer.rs: read_data", "src/meta_rules/mod.rs: parse_with_indent", "src/meta_rules/node.rs: Node::parse"]}
{"id": "C82", "title": "Exactly when parsing returns, panics and runs for ever", "statement": "Trying a rule comes to trying others in a fixed order. Parsing panics exactly when trying the last rule at the start of the text comes to a reference out of range, an entry of a FastSelect table out of range, a FastSelect tail without alternatives, or an indentation that does not fit into 32 bits. It runs for ever exactly when there is an endless chain of tries, and with a lawful lexer exactly when trying comes back to the same thing at the same place with the same indentation, with nothing read on the way. Otherwise it returns. Whether it runs for ever can be found out: a parse that is not finished within an explicit number of levels, a polynomial in the size of the syntax and the text (times 2^32 if lines are indented), never finishes.", "quantifier": "every syntax, also malformed ones, every text, vector and indentation setting; coming back and the bound for every lawful lexer", "why_tests_cant": "a test cannot tell a parse that runs for ever from one that takes long, and the panics depend on syntax and text together", "anchors": ["src/meta_rules/mod.rs: parse_with_indent", "src/meta_rules/rule.rs: Rule::parse", "src/meta_rules/lines.rs: Lines::parse", "src/meta_rules/fast_select.rs: FastSelect::parse", "src/meta_rules/node.rs: Node::parse"]}
{"id": "C83", "title": "What the notation of the meta language can say", "statement": "Exactly these named rules can be said by a text, up to debug ids: the names are names of the notation, there are no FastSelect tables, not is not around a token that is wanted, and separated lists allow a separator at the end. syntax returns nothing but such rules, optimized. Every syntax without tables and without lists that forbid a separator at the end is said up to debug ids: some text is read as rules that accept the same texts with the same data, reject the same texts with the same kind of error at the same place, and run for ever on the same texts. Every syntax without tables and without indented lines, whatever its lists, is said up to errors.", "quantifier": "every text and list of rules; every syntax with indices in range and fewer than 2^63 parts in a rule, every document, vector and indentation setting; every lawful lexer that reads 0 before whitespace (exact for the result of syntax)", "why_tests_cant": "it is a statement about all texts at once that certain rules cannot be said, and that for every syntax built by hand there is some text", "anchors": ["src/bootstrap/rules.rs: rules", "src/bootstrap/convert.rs: convert", "assets/self-syntax.txt", "src/lib.rs: syntax"]}
{"id": "C84", "title": "Rules may be replaced by rules that read the same", "statement": "If parts of the rules of a syntax are replaced by rules that read the same, give the same data and leave the same indentation, the same texts are accepted with the same data, the same texts are rejected, and parsing runs for ever on the same texts; only the errors may change. Without indented lines, separated lists can be said with repetition, an alternative that has been tried before may go, and two alternatives that begin the same may be told apart after the beginning. With indented lines this is false: an alternative may fail at first and succeed when it is tried again, because the indentation it leaves behind is not taken back.", "quantifier": "every syntax, text, vector and indentation setting; running for ever for indices in range and texts without overflowing widths", "why_tests_cant": "equality of two syntaxes on all texts cannot be tested", "anchors": ["src/meta_rules/rule.rs: Rule::parse", "src/meta_rules/separate_by.rs: SeparateBy::parse", "src/meta_rules/select.rs: Select::parse", "src/meta_rules/not.rs: Not::parse", "src/meta_rules/lines.rs: Lines::parse"]}
{"id": "C85", "title": "Only the rules that are referred to matter, and not their order or names", "statement": "Parsing does the same, step for step (the same data, errors, leftovers in the vector, panics and endless runs), with two syntaxes whose last rules differ only in where their references point, if the rules there differ only so, and so on; and so it does after both are optimized. For rules under names: the last rule and what the names met stand for (the first rule of the name) decide everything. So the rules before the last may be put in another order if their names are different, a rule that is not met or that has the name of an earlier one may be left out, and names may be changed as long as different ones stay different. Two texts that say such rules make the same parser, if syntax returns for both. The order of rules of the same name does matter, and a rule that is not met may still keep the optimizer, and so syntax, from returning.", "quantifier": "every two syntaxes, document, vector, indentation setting and lexer; texts for lawful exact lexers", "why_tests_cant": "equality of two parsers on all texts cannot be tested", "anchors": ["src/meta_rules/rule.rs: Rule::update_refs", "src/meta_rules/node.rs: Node::parse", "src/meta_rules/mod.rs: update_refs", "src/lib.rs: Syntax", "src/optimize.rs: optimize_rule"]}
{"id": "C86", "title": "What comes after an error does not matter, without strings, lines and not", "statement": "Let the tokens of a syntax have at most m characters, m at least 1, and let the lexer look at most m characters beyond a number. If no rule has a string, lines or a not, then a text that is rejected with an error is rejected with the same error (range, kind, id) whatever is changed after the first m characters behind the end of the range of the error: an error that has m characters behind it is final, whatever comes next. The same holds for the optimized syntax. The concrete lexer needs m = 3, and 2 is not enough. With a token of m + 1 characters, with strings, with lines and with not it is false, for every m.", "quantifier": "every syntax without strings, lines and not (and tables of the optimizer included), m, two texts, vector, indentation setting and lexer with NearNumbers", "why_tests_cant": "all ways to go on after an error cannot be tried", "anchors": ["src/meta_rules/mod.rs: parse", "src/meta_rules/mod.rs: err_update", "src/meta_rules/rule.rs: Rule::parse", "src/meta_rules/fast_select.rs: FastSelect::parse", "src/meta_rules/not.rs: Not::parse", "src/optimize.rs: optimize_rule"]}
{"id": "C87", "title": "Parsing takes at most exponential time, and polynomial time without recursion", "statement": "With a syntax of M rules (inner ones included) in which no rule leads back to itself without reading and every loop reads something, parsing a text of n characters calls Rule::parse at most (3M+5)^((M+1)(n+1)) times; for the hard-coded rules at most 545^(181(n+1)), so with C71 the worst case is exponential in the length, not less and not more. If no rule leads back to itself at all, whether something is read in between or not, the calls are at most ((M+1)(n+1)+1)^(M+1), a polynomial in n, and never more than M+1 are open at the same time. References to rules further up only are never recursive. Polynomial cannot be replaced by linear: `x = .r?({[.r!(\"a\") \"b\"] \"a\"})` needs at least k*k/2 calls for k times `a`.", "quantifier": "all well-formed syntaxes (tables of the optimizer included), all texts, all token vectors and indentation settings, every lawful lexer", "why_tests_cant": "a bound for all texts and all syntaxes; tests do not count calls", "anchors": ["src/meta_rules/rule.rs: Rule::parse", "src/meta_rules/mod.rs: parse_with_indent", "src/meta_rules/repeat.rs: Repeat::parse", "src/meta_rules/separate_by.rs: SeparateBy::parse", "src/meta_rules/lines.rs: Lines::parse", "src/meta_rules/sequence.rs: Sequence::parse"]}
{"id": "C88", "title": "Optimizing does not make parsing slower", "statement": "Let syn' be what optimize returns for syn, and let the alternatives that are left out of the tables never match at the end of a text (as in C27). Whenever a parse with syn comes to an end without a panic, the same parse with syn' calls Rule::parse at most as often. If at most d calls are open at the same time with syn, at most 2d-1 are with syn', and this is sharp: selects within selects, k of them, need k+1 levels for the text `z` and 2k+1 after optimizing. Both bounds hold for the hard-coded rules. Without the condition on the end of the text optimizing may add calls: 8 instead of 5 for the empty text and `{{\"a\" \"b\" .w?} [.w? .w? .w? .w? .w?]}`.", "quantifier": "all syntaxes for which optimize returns, all texts, all token vectors and indentation settings, every lawful lexer", "why_tests_cant": "a comparison of all runs of two parsers; tests compare neither calls nor stack depth", "anchors": ["src/optimize.rs: optimize_rule, unique_table_from_select", "src/meta_rules/fast_select.rs: FastSelect::parse", "src/meta_rules/select.rs: Select::parse", "src/meta_rules/rule.rs: Rule::parse", "src/lib.rs: Syntax::optimize"]}
{"id": "C89", "title": "Reading a rule file takes linear time, doubled by each unclosed comment", "statement": "Let u be the number of places in a text where `/*` opens a comment that is not closed before the end of the text (comments nest; an opening that is not closed inside its comment is ordinary text of it). Parsing the text with the hard-coded rules calls Rule::parse at most 2030*(length+1)*2^u times, with the optimized ones too. So a rule file in which every comment is closed, or which contains no `/*`, is read in linear time, in spite of the backtracking between 21 mutually recursive rules. The factor 2^u is needed: a text that begins with an unclosed comment and in which no `*/*` occurs takes at least 2^u calls, with the optimized rules too; for the files of C71 that is one factor 2 for each opening, and not more.", "quantifier": "all texts, all token vectors and indentation settings, every lawful lexer that reads numbers as Rust does", "why_tests_cant": "a bound on the running time for all inputs; a test measures single inputs, and exponential cases are rare ones", "anchors": ["src/bootstrap/rules.rs: rules", "src/meta_rules/rule.rs: Rule::parse", "src/meta_rules/select.rs: Select::parse", "src/meta_rules/sequence.rs: Sequence::parse", "src/meta_rules/repeat.rs: Repeat::parse", "src/meta_rules/lines.rs: Lines::parse", "src/meta_rules/node.rs: Node::parse", "src/lib.rs: syntax"]}
{"id": "C90", "title": "Rule files that are accepted after exponentially many calls", "statement": "For every k there is a rule file of 7(k+1) characters that is in the notation, consists of comments that are closed and of nothing else, is accepted by the hard-coded rules (optimized or not), and for which parse comes back only after 2^k calls of Rule::parse or more: the line `/* /*/`, k+1 times. syntax returns the empty syntax for it.", "quantifier": "all k, every lawful lexer that reads numbers as Rust does", "why_tests_cant": "the files have to be found; for ordinary ones the time is linear (C89)", "anchors": ["src/bootstrap/rules.rs: rules", "src/lib.rs: syntax", "src/meta_rules/rule.rs: Rule::parse"]}
{"id": "C91", "title": "Rules are parsing expression grammars, and the other way round", "statement": "Take a syntax without lines rules and without look-up tables. Each rule can be written as a parsing expression (Ford: empty, character, sequence, ordered choice, star, not, reference), where a quoted string or a number counts as one token; lists with separators are sequences of these. The parser accepts exactly the texts all of which the expression of the last rule reads, rejects exactly those that it fails on or reads a part of, and gives no result when the expression has none. Hence vector and indentation settings make no difference to such a syntax. After optimizing, the texts are those of the grammar with guards at the end of the text (C55). The other way round, every parsing expression grammar over characters can be written as rules that accept and reject the same texts. So rules can say more than context free grammars: there is a syntax for as many a as b as c.", "quantifier": "all syntaxes without lines and tables, all parsing expression grammars, all texts, vectors and indentation settings, every lawful lexer (for rejecting: every lexer)", "why_tests_cant": "an equivalence of two formalisms for all grammars and all texts", "anchors": ["src/meta_rules/rule.rs: Rule::parse", "src/meta_rules/select.rs: Select::parse", "src/meta_rules/sequence.rs: Sequence::parse", "src/meta_rules/separate_by.rs: SeparateBy::parse", "src/meta_rules/repeat.rs: Repeat::parse", "src/meta_rules/optional.rs: Optional::parse", "src/meta_rules/not.rs: Not::parse", "src/meta_rules/node.rs: Node::parse", "src/meta_rules/tag.rs: Tag::parse", "src/meta_rules/mod.rs: parse_with_indent"]}
{"id": "C92", "title": "Syntaxes for the other texts, the common texts and the texts of either", "statement": "For a syntax without lines and tables, with references in range and at least one rule, adding the rule [!([start !..\"\"]) ..\"\"?] gives a syntax that accepts what the first rejects and rejects what it accepts. Two such syntaxes can be put together (references of the second moved behind the first) to one that accepts what both accept, and to one that accepts what the first accepts, or what the first rejects and the second accepts; each rejects what it should. If a parse with a part runs for ever, so does the parse with the whole, unless the first part decides. The results can be put together again.", "quantifier": "all syntaxes of this kind, all texts and indentation settings, every lawful lexer", "why_tests_cant": "constructions on all syntaxes, compared on all texts", "anchors": ["src/meta_rules/not.rs: Not::parse", "src/meta_rules/until_any.rs: UntilAny::parse", "src/meta_rules/sequence.rs: Sequence::parse", "src/meta_rules/select.rs: Select::parse", "src/meta_rules/node.rs: Node::parse", "src/meta_rules/mod.rs: parse_with_indent"]}
{"id": "C93", "title": "How often the optimizer looks for unique bytes", "statement": "A call of unique_byte calls itself once for each rule in the chain from a rule to the rule it looks at next; no rule comes twice in a chain, so a call that returns makes at most as many calls as there are rules in the syntax. The calls for the table of a select are those for its alternatives up to the first that has no byte, or a byte that was there before, and at most 255. With k calls of optimize_rule (C80), apart from those on the rules of the syntax themselves, a syntax of s rules takes at most k*s calls of unique_byte; without selects that are tried twice at most s*s. For k selects of one alternative in each other there are exactly k(k+1)/2. The number is given exactly.", "quantifier": "all syntaxes, all rules in them", "why_tests_cant": "a bound for all syntaxes; a test measures one", "anchors": ["src/optimize.rs: unique_byte", "src/optimize.rs: unique_table_from_select", "src/optimize.rs: optimize_rule", "src/lib.rs: Syntax::optimize"]}
{"id": "C94", "title": "How much data a text gives", "statement": "With a well-formed syntax of size s (number of rules, inner ones included), a rule that reads nothing gives at most (s+3)^(s+1) items of data, and a text of n characters gives at most (s+3)^(s+3)*max(n,1): linear in the text. The factor has to be exponential in the rules: for every k there is a syntax of size 3k+5, with all references in range, without recursion, and which can be written in the language, that makes n*2^k items from n letters.", "quantifier": "all well-formed syntaxes, all texts accepted; all k and n", "why_tests_cant": "a bound for all syntaxes and texts", "anchors": ["src/lib.rs: parse", "src/meta_rules/sequence.rs: parse", "src/meta_rules/node.rs: parse"]}
{"id": "C95", "title": "The layout of the JSON text and its length", "statement": "If write does not panic, it writes one line for each item of data: as many spaces as the item lies deep in nodes, the item, a comma unless the item opens a node or is the last or the next one closes a node, and the end of the line; an empty line if there is no data. The length of the text is the sum of these. If as many nodes are opened as closed, the spaces are at most (n-1)^2/4 for n items; this is reached: k+1 pairs of parentheses in each other, a text of 2k+2 characters, can give 2k items and k^2+6k characters of JSON.", "quantifier": "all data of less than 2^31 items that write does not panic on; all data of successful parses; all k", "why_tests_cant": "the exact text for all data", "anchors": ["src/json.rs: write", "src/json.rs: write_string"]}
{"id": "C96", "title": "What converting meta data to rules costs", "statement": "Count the calls of methods of Convert in convert, the items that ignore moves over and the strings that find_string compares. On well nested data of n items with at most d items one inside the other and m nodes called string, the number is at least g and at most (m+20)*n+3+g, where g is the total length of the ranges appended to ignored, and g is at most n*d. So it is linear if nothing is ignored and there are few strings, and at most 2n^2+20n+3 always. It is quadratic for the rule files 0 a = [.r?(.r?(.. _x ..))] of 5k+10 characters in which _x is not defined, which syntax accepts: at least (5k^2+19k+20)/2.", "quantifier": "all well nested data, so all data of successful parses; all k", "why_tests_cant": "a test sees the result, not the number of steps; that trying one reader after the other does not multiply with the depth holds for all data because no two readers go beyond the name of the same node", "anchors": ["src/bootstrap/convert.rs: convert", "src/bootstrap/convert.rs: Convert::ignore", "src/bootstrap/convert.rs: Convert::start_node"]}
{"id": "C97", "title": "How much data a rule file gives and what it costs to convert it", "statement": "A rule file of t characters that the hard-coded rules accept gives at most 4t-15 items of data, or none; this is reached by 0 a =?..?b for every length from 6 on. So converting it takes at most 32t^2+80t+3 steps in the sense of C96, and at most (4m+80)t+3 with m strings if nothing is ignored.", "quantifier": "all texts accepted by the hard-coded rules", "why_tests_cant": "a bound for all rule files that is reached", "anchors": ["src/bootstrap/rules.rs: rules", "src/bootstrap/convert.rs: convert", "src/lib.rs: syntax"]}
{"id": "C98", "title": "What does not matter in a rule file", "statement": "syntax returns the same, panics or runs for ever alike for two rule files that differ only in whitespace, line breaks, comments and escapes; or that are the same once strings are replaced by their texts (so the order of strings, unused strings and second definitions of a name do not matter). Every rule file without empty strings can be written without strings, assets/self-syntax.txt for example; a tag with an empty text can be written only with a string. The numbers of nodes only shift debug ids by 1000 each: with other numbers that are not too large the rules have the same names, accept the same texts with the same data and reject the same texts with the same error but for its id.", "quantifier": "all pairs of rule files in the notation", "why_tests_cant": "relates all pairs of rule files with the same meaning", "anchors": ["src/lib.rs: syntax", "src/bootstrap/convert.rs: convert", "src/bootstrap/rules.rs: rules"]}
{"id": "C99", "title": "How deep convert calls itself", "statement": "A bound on how many calls of read_rule are one inside the other does not change what convert returns, if the bound is larger than the number of nodes with rules that are one inside the other in the data; and a smaller bound than the depth of the rules that are returned is not enough. On what a rule file means, with all its strings defined, the calls are exactly as deep as the deepest rule; for a file of t characters at most t - 5 deep, and 0 a =?...?b reaches this. So the stack that convert needs grows with the length of the file.", "quantifier": "all well nested meta data; all rule files", "why_tests_cant": "the depth of the stack is a statement about all calls in a run; the bound holds for all files and is reached by files of every length", "anchors": ["src/bootstrap/convert.rs: convert, read_rule, read_node"]}
{"id": "C100", "title": "How much update_refs looks at", "statement": "update_refs calls Rule::update_refs once for each rule in the rules, tables not looked into, and for each reference without an index it looks at the names one after the other up to the first that is the name of the reference, and at all of them if there is none. A second call looks at all names again for each reference to no rule, and at none for the others. For a rule file of t characters there are at most t - 4 calls, together with one for each rule, and at most (t + 1)^2 / 40 names looked at; k lines 0 a =b of 7 characters make it look at k^2 names, so the search is quadratic and nothing better than quadratic holds.", "quantifier": "all syntaxes; all meta data; all rule files", "why_tests_cant": "the count holds for every syntax, and the bound for all texts of every length; the worst case is a family of files", "anchors": ["src/meta_rules/mod.rs: update_refs", "src/meta_rules/rule.rs: Rule::update_refs", "src/bootstrap/convert.rs: convert"]}
{"id": "C101", "title": "What syntax costs altogether", "statement": "The work of syntax(text): calls of parse, calls in convert, calls of update_refs, names looked at, calls of optimize_rule and of unique_byte. Counting it does not change what is returned. For a text of t characters with u comments that are not closed: at most 2030 (t + 1) 2^u calls of parse with 2 u <= t, 32 t^2 + 80 t + 3 in convert, t - 5 calls of update_refs, (t + 1)^2 / 40 names, 2^((t - 6) / 6) (t - 5) calls of optimize_rule and t - 5 times as many of unique_byte; altogether at most 2200 (t + 1)^2 2^(t / 2). If no comment is left open and no select is tried twice by the optimizer it is at most 34 t^2 + 2113 t + 2034. The exponent of the optimizer is reached: on 0 a ={b b {b b .. b}} with k selects it is called 5 * 2^k - 4 times and (t - 6) / 6 = k.", "quantifier": "all texts, whether they are read or rejected", "why_tests_cant": "an upper bound on the work for all texts, with the two ways in which it is exponential named exactly; a test can only time some texts", "anchors": ["src/lib.rs: syntax", "src/lib.rs: Syntax::optimize", "src/optimize.rs: optimize_rule, unique_byte", "src/meta_rules/mod.rs: update_refs", "src/bootstrap/convert.rs: convert"]}
{"id": "C102", "title": "How deep syntax calls itself", "statement": "Let every function that syntax(text) calls be cut off when its calls of itself are more than d deep: Rule::parse, read_rule, Rule::update_refs, and optimize_rule together with unique_byte. What is then returned is what syntax returns. It is returned exactly if parse is at most d deep, convert is, and the rules, optimized, are; update_refs is never deeper than convert. update_refs is exactly as deep as the rules are nested, and the optimizer exactly as deep as the rules with, inside each select that gets a table tried, the longest chain of calls of unique_byte. Whenever syntax returns for a text of t characters, d = 362 (t + 1) is enough; after parsing 2 (t - 5) is. For 0 a =??..?b, t - 5 is needed.", "quantifier": "all texts, all depths; all syntaxes for update_refs and optimize", "why_tests_cant": "whether a stack is large enough for all texts of a length is a statement about all of them, and a stack overflow aborts the process", "anchors": ["src/lib.rs: syntax", "src/lib.rs: Syntax::optimize", "src/optimize.rs: optimize_rule, unique_byte", "src/meta_rules/rule.rs: Rule::update_refs, Rule::parse", "src/bootstrap/convert.rs: convert, read_rule"]}
{"id": "C103", "title": "The vector while a text is parsed", "statement": "Whenever parse_with_indent(syn, text, tokens, ..) returns, the sequence of states of the vector tokens, one for each item that read_data pushes, is determined by the text alone: before what was there already, and behind it what stands recorded on the way that is being tried (Recs, which knows no vector). Each state is the one before, cut off or not, with one item pushed; a rejected text leaves the last state, an accepted one a prefix of it. The items that were there are never touched. At most two items are pushed for each call of Rule::parse. With a well-formed syntax no state is longer than the vector before by more than (s+3)^(s+3) (2t+1) items for a text of t characters and rules of size s, whatever is tried in vain; with {[.r?(\"a\":\"x\") \"!\"] .r?(\"a\")} the vector grows by t items although the text is accepted without any data.", "quantifier": "all syntaxes, texts, vectors and indentation settings for which parse returns; the bound for all well-formed syntaxes", "why_tests_cant": "the states in between cannot be observed from outside, and the bound on memory is about all of them for all texts", "anchors": ["src/tokenizer.rs: read_data", "src/meta_rules/mod.rs: parse_with_indent", "src/meta_rules/node.rs: Node::parse", "src/meta_rules/tag.rs: Tag::parse", "src/meta_rules/select.rs: Select::parse"]}
{"id": "C104", "title": "What a syntax accepts, and whether parsing ends, cannot be decided", "statement": "For every string rewriting system with letters below N there are syntaxes (eight rules without lines, tables or data, in which the start word occurs in one token only) such that some text is accepted just if rewriting the start word reaches a word in which one of the given words stands; parsing returns for every text. With another rule at the end there is a text on which parsing runs for ever just if that word is reached; if it is not reached all texts are rejected. By simulating Turing machines it follows: there is a family of such syntaxes, the same but for the binary digits of n in one token, for which no program can tell from n whether any text is accepted, and another for which no program can tell whether there is a text on which parsing runs for ever. So no check of syntaxes, as that for well-formedness, can be both safe and complete.", "quantifier": "all lexers that meet the contract, all rewriting systems and start words, all indentation settings; the undecidability is about all programs", "why_tests_cant": "it is about all programs that could check a syntax, and about all texts", "anchors": ["src/meta_rules/mod.rs: parse_with_indent", "src/meta_rules/select.rs: Select::parse", "src/meta_rules/sequence.rs: Sequence::parse", "src/meta_rules/not.rs: Not::parse", "src/meta_rules/node.rs: Node::parse"]}
{"id": "C105", "title": "What a syntax file accepts, whether two files mean the same, and whether parsing ends, cannot be decided", "statement": "There are a beginning, an end and two texts for the digits such that the file made of the beginning, the binary digits of n and the end is read by `syntax` as one syntax and nothing else, with which parsing returns on every text; no program can tell from n whether this syntax accepts any text. So for a lexer that meets the contract and reads 0 as zero there is no program that tells from the characters of a file whether it is read as a syntax that accepts some text; none that tells from two files whether they are read as syntaxes that accept the same texts; and none that tells whether a file is read as a syntax with which parsing some text runs for ever. The syntaxes consist of rules with at most two alternatives per select, so that no debug id overflows, and what the optimizer does to them is taken into account.", "quantifier": "all lexers that meet the contract, all indentation settings; the undecidability is about all programs", "why_tests_cant": "it is about all programs that could check a file, and about all texts", "anchors": ["src/lib.rs: syntax", "src/bootstrap/convert.rs: convert", "src/meta_rules/mod.rs: parse_with_indent", "src/lib.rs: Syntax::optimize"]}
{"id": "C106", "title": "A parse asks few questions, but may ask the same one again and again", "statement": "A parse that comes to an end makes one list of calls of Rule::parse, as many as it costs (C70). Each of them is of one of the M rules in the syntax (inner ones included) and at one of the n+1 places of the text, with the rest of the text behind it, and each comes to an end. So at most M(n+1) different questions `does this rule stand here?` are asked. Calls that ask the same question with the same indentation have the same answer: the same range, the same error, the same data added and the same indentation afterwards, whatever the vector holds; without indented lines the indentation is always the same, so the rule and the place alone make the answer. Some question is asked at least (calls)/(M(n+1)) times: the exponential time of C71 is repetition and nothing else. With `/* ` k times the hard-coded rules ask at most 180(3k+1) questions, one of them at least 2^k/(180(3k+1)) times.", "quantifier": "all syntaxes, all texts, all vectors and indentation settings for which the parse comes to an end, every lawful lexer", "why_tests_cant": "about all calls of all parses; tests neither list calls nor compare their answers", "anchors": ["src/meta_rules/rule.rs: Rule::parse", "src/meta_rules/mod.rs: parse_with_indent", "src/bootstrap/rules.rs: rules"]}
{"id": "C107", "title": "Without recursion parsing takes polynomial time of any degree", "statement": "For every d the syntax of one rule tower(d), where tower(0) = .r?(\"a\") and tower(d+1) = .r?({[tower(d) \"b\"] \"a\"}), is well-formed, not recursive and has 5d+2 rules in it; it accepts k times `a` without recording anything, after exactly towerCost(d,k) calls of Rule::parse, at most 3d+2 of them open at the same time, where towerCost(0,k) = k+2 and towerCost(d+1,k) = 1 + the sum of towerCost(d,j)+4 for j from 0 to k. That is at least (k+1)^(d+1)/(d+1)!. So for no e there is a bound b(n+1)^e for the calls with syntaxes that are well-formed and not recursive, not even if b may depend on the syntax: the exponent of C87 has to grow with the syntax.", "quantifier": "all d, all k, all lexers, all vectors and indentation settings", "why_tests_cant": "a family of syntaxes and a lower bound for all lengths; tests do not count calls", "anchors": ["src/meta_rules/rule.rs: Rule::parse", "src/meta_rules/repeat.rs: Repeat::parse", "src/meta_rules/select.rs: Select::parse", "src/meta_rules/sequence.rs: Sequence::parse"]}
{"id": "C108", "title": "The Debug text of a rule shows everything but its tables", "statement": "Two rules, or two syntaxes, have the same text `{:?}` exactly if they are the same apart from what stands in look-up tables (FastSelect). So the Debug text of a rule or syntax without tables belongs to no other, and == holds exactly if the Debug texts agree and there is no table. A table is written `FastSelect()` whatever it holds, so after optimize (as in every result of syntax) syntaxes that accept different texts may have the same Debug text: {\"a\" \"b\"} and {\"c\" \"d\"}. The Debug text of an item of meta data determines it up to numbers that print alike, so messages of Search with the same expectation name the same item. Debug texts contain no new line.", "quantifier": "all rules, syntaxes and items, however the standard library decides which characters to escape as \\u{..} and prints numbers", "why_tests_cant": "about all pairs of rules and syntaxes; tests do not look at Debug texts", "anchors": ["src/meta_rules/fast_select.rs:36-40 Debug for FastSelect", "src/meta_rules/rule.rs:28 derive(Debug) for Rule", "src/lib.rs:171-192 derive(Debug) for MetaData and Syntax", "src/search/src/lib.rs:208-338 messages of Search"]}
{"id": "C109", "title": "Properties are for the data only", "statement": "Syntaxes that differ only in the properties their rules set (names given, changed or taken away, in any way) accept the same texts, reject the same texts with the same errors at the same places, run for ever on the same texts and are optimized to syntaxes that differ only in properties. If every property x is renamed to f(x), or taken away where f(x) is nothing, then the data is the old data with each item renamed by f, or left out, and with the same ranges; without properties nothing is recorded, and taking away the properties outside of a set of names takes away exactly the items with other names.", "quantifier": "all syntaxes, all texts, all vectors and indentation settings, every lexer, all functions f; for running for ever: syntaxes without dangling references and texts short enough not to overflow the indentation", "why_tests_cant": "about all syntaxes and all ways to name their properties; a test fixes one", "anchors": ["src/meta_rules/tag.rs: Tag::parse", "src/meta_rules/node.rs: Node::parse", "src/meta_rules/text.rs: Text::parse", "src/meta_rules/number.rs: Number::parse", "src/tokenizer.rs: read_data", "src/optimize.rs: optimize_rule"]}
{"id": "C110", "title": "Syntaxes decided by the next character are parsed in linear time", "statement": "Let marks be given for the rules of a syntax: the characters it may begin with, those it may leave after having begun something in vain, whether it may match nothing, fail after having begun, or fail at all, and how many calls it makes without reading. If the marks are confirmed rule by rule, at most one alternative of a select begins with each character, and nothing begun in vain can be begun again by what follows, then the syntax is well-formed, every text is accepted or rejected, and the number of calls is at most A * length + B, with A and B given by the longest list of parts and the most calls without reading. The rules may be recursive. The optimized syntax keeps within the same bound if its tails are refused at the end. Texts, lists and tables within each other are read with at most 1471 calls for each character. No marks are confirmed for the rules of the meta language, nor for a repeat over two ways to begin.", "quantifier": "all lawful lexers, all syntaxes without dangling references, all marks, all texts", "why_tests_cant": "a bound for all texts and all syntaxes of a kind", "anchors": ["src/meta_rules/rule.rs:67-122 parse", "src/meta_rules/select.rs:28-55 parse", "src/meta_rules/sequence.rs:29-53 parse", "src/meta_rules/optional.rs:29-54 parse", "src/meta_rules/separate_by.rs:35-86 parse"]}
{"id": "C111", "title": "Where the next character decides, the rules may be read as a grammar", "statement": "Read the rules as a grammar that generates texts: any alternative of a select may be taken, whatever is optional may be there or not, and anything may be repeated any number of times; only rules that call no others read as much as they can. Every accepted text is generated with its data. If the next character decides (at most one alternative begins with it, only the last may match nothing, and nothing begins where what stands before it could have read more), then a text is accepted exactly if it is generated, with the same data, and rejected exactly if it is not; no text is generated with different data; and the order of the alternatives does not matter. Without these conditions a generated text may be rejected ([?\"a\" \"a\"] on a), and the order matters ({\"a\" \"ab\"}).", "quantifier": "all lawful lexers, all syntaxes without lines, look-up tables and dangling references, all marks, all texts", "why_tests_cant": "relates the parser to all derivations of a grammar", "anchors": ["src/meta_rules/select.rs:28-55 parse", "src/meta_rules/optional.rs:29-54 parse", "src/meta_rules/repeat.rs:31-62 parse", "src/meta_rules/separate_by.rs:35-86 parse", "src/meta_rules/mod.rs:58-88 parse_with_indent"]}
{"id": "C112", "title": "Whether the next character decides can be computed", "statement": "The marks that C110 and C111 ask for are computed from the rules, step by step, with lists of the characters that occur in the rules and one element for all other characters. What the computable check confirms are marks, so every text is parsed, by linearly many calls, and, if the second check confirms it, accepted exactly if the rules generate it. The check misses nothing: if there are any marks, those found after at most n * (2a + 5 + I) steps are confirmed (n rules, a characters, I calls without reading); and if the steps come to rest with marks that are not confirmed, there are none. For example a syntax for sums, products and brackets and the rules of examples/hello_world.rs are confirmed, and the rules of examples/key_value.rs have no marks.", "quantifier": "all syntaxes that leave some character unmentioned, all lexers with a known list of characters that numbers begin with, all marks, all texts", "why_tests_cant": "the check is shown to be sound and complete for a property of all texts", "anchors": ["src/meta_rules/mod.rs:58-88 parse_with_indent", "src/meta_rules/select.rs:28-55 parse", "src/meta_rules/sequence.rs:29-53 parse", "examples/hello_world.rs:8-10", "examples/key_value.rs:13-23"]}
{"id": "C113", "title": "Tabs in the texts of examples/indent.rs", "statement": "The first child of a number defines the column of its siblings as the column needed (one more than that of the parent) plus the width of the spaces and tabs that are not needed to reach it: what a tab reaches beyond the needed column is forgotten. The following lines belong to the block if they reach that column exactly with their last space or tab. With this reading of columns, texts with spaces and tabs are read as the tree they lay out provided that no line reaches so far that it would belong to the tree before it; every text that is read is laid out so, without the proviso; and where each number ends its line, the texts read are exactly those with the proviso, and the tree is the only one. As a consequence numbers below each other behind two tabs are not siblings: of n numbers each of the first three is the parent of the following ones, while with eight spaces they are siblings.", "quantifier": "all texts, with tabs or not, every lexer that meets the assumptions; the exact statement for all texts in which every number ends its line", "why_tests_cant": "about all texts; the tests with tabs (src/meta_rules/lines.rs indent_align_tabs, indent_align_tabs2) have one level of tabs", "anchors": ["src/meta_rules/lines.rs:45-104 the closure: reaching the column, align_first", "src/meta_rules/indent_settings.rs:12-20 tab_spaces: 4", "examples/indent.rs:5-25"]}
{"id": "C114", "title": "The cost of a rule has a meaning of its own", "statement": "Whenever trying a rule at a position has an outcome, there is exactly one number of calls of Rule::parse and one nesting depth that the clauses of `Counts` give it, from the rule, the position and the current indentation alone. Every call of Rule::parse for that rule at that position makes exactly that many calls with that depth, whatever the vector of tokens and the token state hold; in particular the cost of parse is that of the last rule at the beginning of the text and does not depend on what the caller's vector holds.", "quantifier": "all lexers, rules (optimized or not), positions, indentations, vectors and token states, of all rules that return", "why_tests_cant": "about all rules, texts and vectors; calls are not counted by any test", "anchors": ["src/meta_rules/rule.rs:67-121 Rule::parse dispatches to the rule", "src/meta_rules/select.rs:28 Select::parse", "src/meta_rules/fast_select.rs:44 FastSelect::parse", "src/meta_rules/sequence.rs:29 Sequence::parse", "src/meta_rules/repeat.rs:31 Repeat::parse", "src/meta_rules/separate_by.rs:35 SeparateBy::parse", "src/meta_rules/lines.rs:33-138", "src/meta_rules/mod.rs:58-88 parse_with_indent"]}
{"id": "C115", "title": "Exponential time for outlines with tabs", "statement": "The program examples/indent.rs accepts, for every n, the text slowTree d n of 4 + 29n/2 + 11n²/2 characters (digits, tabs, spaces and newlines), and reading it takes exactly 36·2^n − 25 calls of Rule::parse. A text of 9384 characters takes more than 2^45 calls.", "quantifier": "all n with 4n + 9 < 2^32 (columns are u32), every digit the lexer reads, every lexer that meets the assumptions, whatever the caller's vector holds", "why_tests_cant": "a family of texts with exact counts; the larger ones would not finish", "anchors": ["src/meta_rules/lines.rs:45-104 a line is tried in the inner block before the outer", "src/meta_rules/lines.rs:105-109 a block whose last line fails has failed, and is read again from outside", "examples/indent.rs:5-25", "src/meta_rules/indent_settings.rs:12-20"]}
{"id": "C116", "title": "Four calls for each number of an outline", "statement": "A tree laid out with spaces and tabs so that no line reaches so far that it would belong to the tree before it is read by examples/indent.rs with exactly 4N + 3 calls of Rule::parse, N being the number of its numbers. In particular so is every accepted text without tabs, and every accepted text in which each number ends its line; N is a third of the data and at most the length of the text. (Both conditions are violated by the texts of C115, which take exponentially many calls.)", "quantifier": "all texts that are accepted and have no tabs or only one number on each line; all trees laid out without conflict; every lexer that meets the assumptions; whatever the caller's vector holds", "why_tests_cant": "an exact count for all texts; calls are not counted by any test", "anchors": ["src/meta_rules/lines.rs:45-104 a line that does not reach the column makes no call", "src/meta_rules/node.rs:34-90", "src/meta_rules/sequence.rs:29-53", "examples/indent.rs:5-25"]}
{"id": "C117", "title": "What the cost of a parse does not depend on", "statement": "The number of calls of Rule::parse and how deep they nest are the same for rules that differ in debug ids, in properties (present or not) and in the names of nodes only, and at whatever offset the text stands. In particular parsing for the data costs as many calls as parsing for acceptance alone (all properties taken away).", "quantifier": "all lexers, all rules and syntaxes (optimized or not), all texts on which the parse returns, all vectors", "why_tests_cant": "about pairs of syntaxes and all texts; calls are not counted by any test", "anchors": ["src/meta_rules/rule.rs:67-121 parse", "src/meta_rules/node.rs:34 Node::parse (property)", "src/meta_rules/tag.rs:37 Tag::parse (property, debug_id)", "src/meta_rules/mod.rs:58-88 parse_with_indent"]}
{"id": "C118", "title": "What stands before an error can be continued", "statement": "If the next character decides (C111), every rule generates some text, nothing is forbidden (no inverted tags, no not), and nothing may begin with a character that would have been read by what stands before it, then the text before the offset of the error that is reported - and of every failure met on the way, other than those inside a quoted string - is the beginning of a text that is accepted. An error at the end of the text means that something is missing. Without the last condition this fails.", "quantifier": "all such syntaxes, all texts, all lexers meeting the assumptions; for numbers, all characters before which they end", "why_tests_cant": "for every rejected text another, accepted one has to be found", "anchors": ["src/meta_rules/mod.rs:58-88 parse_with_indent", "src/meta_rules/mod.rs:134-160 update, err_update", "src/meta_rules/sequence.rs:29 Sequence::parse", "src/meta_rules/repeat.rs:31 Repeat::parse", "src/meta_rules/separate_by.rs:35 SeparateBy::parse"]}
{"id": "C119", "title": "Errors stand where a text can no longer be continued", "statement": "Where C118 applies, and there are no texts, lines and not, there is a last point k from which the text can be continued to one that is accepted - the first j characters are the beginning of an accepted text exactly if j is at most k - and the reported error is neither after k nor, with the m characters after its end, before it: offset <= k < end + m, where m is the length of the longest token and at least three if there are numbers. The bound is reached: 1e+; is rejected at the e, and can be continued after the sign.", "quantifier": "all such syntaxes, all rejected texts that go on for m characters after the error, all prefixes", "why_tests_cant": "that no text beginning like this is accepted is a statement about all texts", "anchors": ["src/meta_rules/mod.rs:58-88 parse_with_indent", "src/meta_rules/mod.rs:134-160 update, err_update", "src/meta_rules/tag.rs:37 Tag::parse", "src/meta_rules/number.rs:28 Number::parse"]}
{"id": "C120", "title": "Whether texts before errors can be continued can be computed", "statement": "The conditions of C118 are checked by a computable function of the rules: what must not follow a rule is a list of characters found step by step, like the marks of C112, and so are the rules that generate some text. What the check confirms meets the conditions, so the text before every reported error outside of quoted strings is the beginning of an accepted text. The check misses nothing: if the conditions are met by any marks, the marks, lists and rules found after finitely many steps are confirmed (at most n steps for the rules that generate some text, with n rules). It confirms the rules of examples/hello_world.rs and those for sums and brackets, and confirms nothing for the rules of C118 for which the text cannot be continued.", "quantifier": "all syntaxes that leave some character unmentioned, all lexers with known lists of the characters that numbers begin and end with, all texts", "why_tests_cant": "the check is shown to be sound and complete for a property of all texts", "anchors": ["src/meta_rules/mod.rs:58-88 parse_with_indent", "src/meta_rules/mod.rs:134-160 update, err_update", "examples/hello_world.rs:8-10"]}
{"id": "C121", "title": "What an error says is expected could have stood there", "statement": "Under the conditions of C118 (the next character decides, what has been read can be continued, every rule generates some text), every failure met while rejecting a text, outside of quoted strings and other than that the end was expected, is the failure of a rule of the syntax that the error tells of, and whatever text this rule generates could have stood where the error is: the text before the error followed by it is the beginning of an accepted text. In particular this holds of the reported error: an expected tag, or any whitespace where whitespace is expected, could have stood there, and where the end is expected the text before is itself accepted. In sums, 2*(3; is answered by an expected parenthesis, and 2*(3) can be continued. The condition that what has been read can be continued is needed.", "quantifier": "all syntaxes that meet the conditions (which C120 decides), all texts, all failures, all texts generated by the rule that failed", "why_tests_cant": "for every error there are infinitely many texts that could have stood there, and it says that for each of them some continuation exists", "anchors": ["src/meta_rules/mod.rs:58-88 parse_with_indent", "src/meta_rules/mod.rs:134-161 update, err_update", "src/meta_rules/tag.rs:81", "src/parse_error.rs:28"]}
{"id": "C122", "title": "Regular languages and what lies beyond them", "statement": "Every regular language over finitely many characters (in the sense of Mathlib: accepted by a deterministic finite automaton) is what some syntax accepts: the texts of the language are accepted without data, all others are rejected, and every parse returns after a number of calls of Rule::parse that is at most proportional to the length of the text, 2k+3 for each character where k is the number of characters used. The rules are those of the automaton: one for each state, with one alternative for each character. There is a file of rules that says the same. There is more: the texts of as many a as b, in this order, are what a syntax with a single rule accepts, and are no regular language.", "quantifier": "all regular languages over finitely many characters, all automata, all lexers, all texts, all settings", "why_tests_cant": "a statement about all automata and all texts, and about the non-existence of an automaton", "anchors": ["src/meta_rules/select.rs: Select::parse", "src/meta_rules/sequence.rs: Sequence::parse", "src/meta_rules/optional.rs: Optional::parse", "src/meta_rules/node.rs: Node::parse"]}
{"id": "C123", "title": "What json::write writes, the library reads", "statement": "There is one fixed syntax, and a file of rules for it, that reads every text that json::write writes for well-nested data (in particular for whatever data a parser returned): parsing succeeds, and its data is the data that was written with every item replaced by a node with its name and its value, in the same order and with the same nesting. So strings with quotes, backslashes and line breaks, truth values and empty and nested nodes come back as they were. The data that was written is determined by what is read. Reading takes a number of calls of Rule::parse at most proportional to the length of the text. For numbers it is required only that each number that occurs is read back from its own printed text before a comma and a new line.", "quantifier": "all well-nested data of less than 2^32 items, all number formats that read back, all lawful lexers whose numbers begin with a digit or a minus, all settings", "why_tests_cant": "a statement about all data of any depth with any names and strings", "anchors": ["src/json.rs: write", "src/json.rs: write_string", "src/meta_rules/text.rs: Text::parse", "src/meta_rules/separate_by.rs: SeparateBy::parse", "src/meta_rules/mod.rs: parse"]}
{"id": "C124", "title": "Context-free languages and what lies beyond them", "statement": "If every rule of a syntax, at any depth, is a tag that must be there, a sequence, a choice, a repetition, a separated list, an optional rule or a reference, and the next character decides what to do (as checked by C112), then the accepted texts are a context-free language, generated by the grammar with one production for each way to replace a rule. With a negated rule this fails: one fixed syntax of three rules accepts exactly the texts of as many a as b as c, at least one each, and no context-free grammar generates these.", "quantifier": "all such syntaxes, all lawful lexers, all texts, all settings of indentation; all context-free grammars for the second part", "why_tests_cant": "a statement about all texts of a language, and about all grammars for it", "anchors": ["src/meta_rules/not.rs: Not::parse", "src/meta_rules/until_any.rs: UntilAny::parse", "src/meta_rules/node.rs: Node::parse", "src/meta_rules/optional.rs: Optional::parse", "src/meta_rules/select.rs: Select::parse", "src/meta_rules/sequence.rs: Sequence::parse"]}
{"id": "C125", "title": "Rules that never match can be found", "statement": "In as many steps as there are rules it is found for every rule whether it needs, in all alternatives, rules that need themselves. For every syntax a rule that is found so matches nowhere in any text with any indentation, and if it is the last rule every text is rejected. The others may still never match (and by C104 no program finds all of these). But where the next character decides (C112) and nothing may begin with what would have been read before it (the condition of C120, computable as well), every other rule, at any depth, matches somewhere; so it is computed whether any text is accepted.", "quantifier": "all syntaxes (first part); all syntaxes confirmed by the checks and all lawful, exact lexers (second part)", "why_tests_cant": "that no text is accepted is a statement about all texts", "anchors": ["src/meta_rules/rule.rs: Rule::parse", "src/meta_rules/node.rs: Node::parse", "src/meta_rules/select.rs: Select::parse", "src/meta_rules/sequence.rs: Sequence::parse", "src/meta_rules/fast_select.rs: FastSelect::parse", "src/meta_rules/separate_by.rs: SeparateBy::parse"]}
{"id": "C126", "title": "The text of a node may be exchanged", "statement": "Where the next character decides and nothing may begin with what would have been read before it (the computable conditions of C125), the accepted texts are those that are put together from texts each of which is read on its own: no part depends on what follows it. For every item that starts a node in the data of an accepted text, the item that ends it holds the range of its text; the rule that the node refers to reads exactly this text when given it alone, with the data that stands between the two items; and if this text is exchanged for any other that this rule reads alone, the whole text is accepted, with the data of the new text in place of the old and all other data as before. So after an edit within a node only this node has to be parsed again. Without the second condition this fails.", "quantifier": "all such syntaxes, all lawful and exact lexers, all accepted texts, all nodes, all texts to put in their place", "why_tests_cant": "a statement about all texts and all edits", "anchors": ["src/meta_rules/node.rs: Node::parse", "src/meta_rules/sequence.rs: Sequence::parse", "src/meta_rules/select.rs: Select::parse", "src/meta_rules/separate_by.rs: SeparateBy::parse", "src/meta_rules/repeat.rs: Repeat::parse", "src/meta_rules/mod.rs: parse"]}
{"id": "C127", "title": "Needless whitespace may be left out", "statement": "Where the next character decides and nothing may begin with what would have been read before it (the computable conditions of C126), for every accepted text there is a text that is no longer, is accepted with the same data, and is put together with nothing where the rules have optional whitespace and with one space where whitespace is needed. Conversely every text put together in this way is accepted. If the conditions hold for the rules in which whitespace has been replaced in this way too, these rules accept only texts that the original rules accept, with the same data and ranges, and all data that the original rules give. For the sums of C112 this applies. Without the second condition it fails: a text may need whitespace that the rules call optional.", "quantifier": "all such syntaxes, all lawful and exact lexers, all accepted texts", "why_tests_cant": "a statement about all texts, and about the existence of another text for each of them", "anchors": ["src/meta_rules/whitespace.rs: Whitespace::parse", "src/meta_rules/sequence.rs: Sequence::parse", "src/meta_rules/select.rs: Select::parse", "src/meta_rules/separate_by.rs: SeparateBy::parse", "src/meta_rules/mod.rs: parse"]}
{"id": "C128", "title": "Which names occur in the data can be computed", "statement": "For every syntax and every name there is a computable check such that, if it says no, no item of the data of any accepted text has this name. Where the next character decides and nothing may begin with what would have been read before it (the computable conditions of C125), the check is exact: if it says yes, there is an accepted text with an item of this name in its data. So for such syntaxes it can be computed which names a program that reads the data has to deal with. In general the check may say yes for names that do not occur.", "quantifier": "all syntaxes, all names, all lawful lexers, all texts; for exactness all syntaxes under the conditions and all lawful and exact lexers", "why_tests_cant": "that a name never occurs is a statement about all texts", "anchors": ["src/meta_rules/node.rs: Node::parse", "src/meta_rules/tag.rs: Tag::parse", "src/meta_rules/text.rs: Text::parse", "src/meta_rules/number.rs: Number::parse", "src/meta_rules/until_any.rs: UntilAny::parse", "src/meta_rules/until_any_or_whitespace.rs: UntilAnyOrWhitespace::parse", "src/meta_rules/mod.rs: parse"]}
{"id": "C129", "title": "The ranges after an edit", "statement": "Under the conditions of C126, if the text of a node in an accepted text is exchanged for another text that the rule of the node reads alone, all items are known with their ranges: the items before the node and its start stay as they are; the items of the new text are those that the rule gives for it alone, moved to the place of the node; the end of the node holds the length of the new text; of the items after it, those that begin after the old text are moved by the difference of the lengths, and the ends of the nodes around it keep their place and become longer or shorter by it. If the old text was not empty, the offset alone tells which of these it is, so the new ranges can be computed from the old ones.", "quantifier": "all such syntaxes, all lawful and exact lexers, all accepted texts, all nodes, all texts to put in their place", "why_tests_cant": "a statement about all texts and all edits", "anchors": ["src/meta_rules/node.rs: Node::parse", "src/meta_rules/sequence.rs: Sequence::parse", "src/meta_rules/separate_by.rs: SeparateBy::parse", "src/meta_rules/repeat.rs: Repeat::parse", "src/meta_rules/mod.rs: parse"]}
{"id": "C130", "title": "Exactly which data texts have", "statement": "Under the conditions of C126 (the next character decides, and nothing may begin with what would have been read before it), the data of the accepted texts is exactly the data that the rules allow, said without any text: a tag gives its truth value, a text until some characters gives any string without them (and not the empty one, unless it is optional), a quoted string gives any string whatever (and not the empty one, unless that is allowed), a number gives the value of any number, alternatives, sequences, repetitions and separated lists give what their parts give, and a node puts a start and an end around the data of its rule. The same holds for each rule read alone. In general the rules allow data that no text has.", "quantifier": "all such syntaxes, all lawful and exact lexers in which only empty quotes stand for the empty string (proved of the model of `read_token`), all data", "why_tests_cant": "a statement about the set of all data over all texts", "anchors": ["src/meta_rules/mod.rs: parse", "src/meta_rules/text.rs: Text::parse", "src/meta_rules/until_any.rs: UntilAny::parse", "src/meta_rules/node.rs: Node::parse", "src/meta_rules/select.rs: Select::parse", "src/meta_rules/sequence.rs: Sequence::parse", "src/meta_rules/separate_by.rs: SeparateBy::parse", "src/meta_rules/repeat.rs: Repeat::parse"]}
{"id": "C131", "title": "Alternatives that never match may be left out", "statement": "If the alternatives of select that C125 finds to match nowhere are taken out of a syntax without indented lines, every text that was accepted is accepted with the same data, and every text that was rejected is rejected. If the syntax is well formed (C25), the texts accepted and rejected are exactly the same. The same rules are found to match nowhere as before, no such alternative is left, and doing it again changes nothing. If such an alternative runs for ever, more texts are accepted without it; with indented lines it may leave an indentation behind, and fewer texts may be accepted without it.", "quantifier": "all syntaxes without indented lines (for equality: well formed), all lawful lexers, all texts", "why_tests_cant": "a statement about all syntaxes and all texts", "anchors": ["src/meta_rules/select.rs: Select::parse", "src/meta_rules/fast_select.rs: FastSelect::parse", "src/meta_rules/node.rs: Node::parse", "src/meta_rules/mod.rs: parse"]}
{"id": "C132", "title": "The doubles that number rules give", "statement": "With the modelled lexer, the values of the texts that a number rule reads are exactly the doubles that are not \"not a number\": all finite ones, both zeros and both infinities, whether underscores are allowed or not. If a text `digits e - digits`, perhaps with a minus before it, says exactly the value of a finite double other than zero, that double is read. With C130 this gives all data of syntaxes with numbers.", "quantifier": "all texts, all 2^64 doubles", "why_tests_cant": "a statement about all texts and all bit patterns", "anchors": ["src/meta_rules/number.rs: Number::parse", "src/lib.rs: MetaData::F64"]}
{"id": "C133", "title": "Numbers are read as the nearest double", "statement": "What the modelled lexer takes for a number says, once the underscores are left out, a number m * 10^e, perhaps with a minus. It is read as the double of that sign that is nearest to it, and halfway between two as the one whose last bit is 0, infinity counting as 2^1024; there is always exactly one such double, so this says exactly what is read. Reading keeps the order.", "quantifier": "all texts that number rules accept, all numbers m * 10^e, all 2^64 doubles", "why_tests_cant": "compares with all doubles, for all texts; wrong rounding shows for very few numbers only", "anchors": ["src/meta_rules/number.rs: Number::parse", "src/lib.rs: MetaData::F64"]}
{"id": "C134", "title": "Numbers that json::write has written are read back", "statement": "With the modelled lexer, a text that says m * 10^e is read whole wherever what follows is not a digit, an underscore, a point or an e, as the double nearest to it. So if the formatter of numbers prints a decimal text, the number is read back from what json::write writes exactly if it is the double nearest to that text; this holds in particular if its value is printed exactly, and there is a formatter that does so for all finite doubles. Hence well-nested data is read back from its JSON text (C123) without any condition on the lexer, and different data has different JSON texts. What Rust prints for infinite numbers and for \"not a number\" is not read back.", "quantifier": "all formatters, all doubles, all well-nested data", "why_tests_cant": "all 2^64 doubles and all ways to print them", "anchors": ["src/json.rs: write", "src/meta_rules/number.rs: Number::parse"]}
{"id": "C135", "title": "The numbers written before the rules", "statement": "What stands before a rule in a rule file says a number, and is taken for the nearest double (modelled lexer). A natural number up to 2^53 is taken for itself, and as a usize it is the number that was written; so the debug ids of the parts of the rule are 1000 n + 1, 1000 n + 2, ..., and two rules with different such numbers share no debug id if each has fewer than 1000. Larger numbers are never taken for smaller ones, but beyond 2^53 different numbers may be taken for the same: 9007199254740992 and 9007199254740993 are.", "quantifier": "all rule files, all natural numbers up to 2^53, all pairs of rules", "why_tests_cant": "about all numbers and all pairs of them", "anchors": ["src/bootstrap/convert.rs:853-854", "src/meta_rules/number.rs: Number::parse"]}
{"id": "C136", "title": "Exactly what number rules read", "statement": "With the modelled lexer, a number rule without underscores reads exactly the longest beginning of the text that says a number (digits, perhaps with a minus before them, a point and digits, and an exponent with digits after them), and fails exactly if no beginning does; with underscores it fails in the same cases. Underscores do not matter: without them the same text is read whole, as the same double. A syntax that consists of one number rule accepts exactly the texts that say a number, and its data is the nearest double.", "quantifier": "all texts", "why_tests_cant": "a statement about all texts and all their beginnings", "anchors": ["src/meta_rules/number.rs: Number::parse"]}
{"id": "C137", "title": "The numbers in the data", "statement": "With the modelled lexer, every number in the data of an accepted text, and every one that a rejected text leaves in the vector, is the double nearest to what the text says at its range, without underscores. None is \"not a number\", so every item of parsed data equals itself (compare C50). It is infinite exactly if the text says a number that lies at least halfway between the largest double and 2^1024. If the formatter prints finite doubles so that they are nearest to their texts, data without infinite numbers is recovered from its JSON text. When a number is reported to be expected, no text that begins there says a number; that a number cannot be parsed is never reported.", "quantifier": "all syntaxes, all texts, all items of the data", "why_tests_cant": "all syntaxes and all texts; the bound for infinite numbers has 309 digits", "anchors": ["src/meta_rules/number.rs: Number::parse", "src/lib.rs: MetaData::F64", "src/json.rs: write"]}
{"id": "C138", "title": "Exactly what string rules read", "statement": "With the modelled lexer, a string is taken exactly if the text begins with a quote and has a later quote that no backslash escapes; it ends at the first such quote. It is read as s exactly if what stands between the quotes stands for s, where a character other than quote and backslash stands for itself, a backslash with one of \" \\ / b f n r t for the usual character, and \\u with four hexadecimal digits for the character with that number (never for half of a surrogate pair). Such a text stands for at most one string, every string can be written, and any other quoted text is an error. A syntax that is one string rule accepts exactly these texts, with the string they stand for; the empty one only if the rule allows it.", "quantifier": "all texts, all strings", "why_tests_cant": "all texts with all mixes of escapes; that nothing else is accepted is about all texts", "anchors": ["src/meta_rules/text.rs: Text::parse"]}
{"id": "C139", "title": "The strings in the data", "statement": "With the modelled lexer, every string in the data of an accepted text, and every one that a rejected text leaves in the vector, either is the text at its range and was recorded by a rule that reads up to a character, or was recorded by a string rule, and the text at its range is a quoted text that stands for it (C138). When a text is reported to be expected, no quoted string begins there. When a text is reported to be empty, the range holds two quotes. When a string is reported to have an invalid format, the range begins at a backslash inside a quoted string and ends before the closing quote; what stands before it in the quotes stands for something, and no beginning of what stands from the backslash on does: it is the first bad escape.", "quantifier": "all syntaxes, all texts, all items of the data", "why_tests_cant": "all syntaxes and all texts; the error is the first one of any mix of escapes", "anchors": ["src/meta_rules/text.rs: Text::parse", "src/meta_rules/until_any.rs: parse", "src/meta_rules/until_any_or_whitespace.rs: parse"]}
