{"id": "C01", "title": "No options means no change", "statement": "Formatting an accepted Lua source with no format option set and no line range returns the source text unchanged; the only possible difference is one newline appended when the text ends in a one-line comment or shebang line that has no newline.", "quantifier": "every source text accepted by the parser", "why_tests_cant": "Source texts are unbounded; a test shows the identity for the samples only, while a lost or duplicated character may hide in any construct, gap or nesting.", "anchors": ["src/formatter.rs:process_buffer_with_config", "src/parser/lua_ast.rs:Node::configured_write", "src/formatting/loc_hint.rs:CommentLocHint", "src/parser/comment_ast.rs:Node::configured_write"]}
{"id": "C02", "title": "Formatting keeps the token sequence", "statement": "Whenever formatting succeeds, the output read back by the lexer has the same tokens in the same order as the source, up to the rewrites the options ask for (quote style of character strings, table field separators, trailing field separator).", "quantifier": "every accepted source and every configuration whose hints are blank text and whose field separator is a Lua separator", "why_tests_cant": "The number of (program, option) combinations is unbounded (about 50 options); a fusion of two neighbouring tokens needs one specific pair of tokens and options.", "anchors": ["src/parser/lua_ast.rs:Node::configured_write", "src/formatting/list.rs:cfg_write_sep_list", "src/formatting/loc_hint.rs:CommentLocHint", "src/parser/lua_lexer.rs:Lexer"]}
{"id": "C03", "title": "Formatted output parses to the same program", "statement": "The output of a successful formatting run is accepted by the parser again and yields the same syntax tree up to positions, field separators and string quote style.", "quantifier": "every accepted source and every configuration of the class of C02", "why_tests_cant": "Needs the token claim for all programs plus the fact that the grammar looks at tokens only.", "anchors": ["src/parser/lua_syntax.lalrpop", "src/formatter.rs:process_buffer_with_config"]}
{"id": "C04", "title": "Comments survive in order", "statement": "Unless remove_comments is set, every comment of the source appears in the output, in the same order and between the same two tokens, with its text changed at most by trimming blanks at its ends and inserting the configured hints.", "quantifier": "every accepted source, every configuration with blank hints, no line range", "why_tests_cant": "Comments may stand between any two tokens of any construct; each construct lists its gaps by hand in the printer, so one forgotten gap loses comments only there.", "anchors": ["src/parser/lua_ast.rs:Node::configured_write", "src/parser/comment_ast.rs:Node::configured_write", "src/formatting/loc_hint.rs:CommentLocHint"]}
{"id": "C05", "title": "remove_comments removes comments and nothing else", "statement": "With remove_comments = true (and no line range) the output contains every token of the source in order and no comment.", "quantifier": "every accepted source, every configuration with blank hints and remove_comments = true", "why_tests_cant": "Universally quantified over programs and the other options.", "anchors": ["src/parser/comment_ast.rs:Node::configured_write"]}
{"id": "C06", "title": "The formatter never crashes", "statement": "Formatting any text under any configuration returns a result or an error; it does not panic.", "quantifier": "every text and every configuration", "why_tests_cant": "Panics need a particular combination of options, byte offsets or widths; no finite sample excludes them.", "anchors": ["src/formatting/util.rs:test_oneline", "src/parser/common.rs:Loc::substr", "src/formatting/loc_hint.rs:CommentLocHint::configured_write"]}
{"id": "C07", "title": "A parsed program always gets formatted", "statement": "Once the parser has accepted the source, the printing phase cannot end in FormattingError: each gap between two tokens is read back by the comment parser without error.", "quantifier": "every accepted source and every configuration", "why_tests_cant": "The gap re-parse happens at every gap of every program.", "anchors": ["src/formatting/loc_hint.rs:CommentLocHint::configured_write", "src/parser/comment_lexer.rs:Lexer", "src/parser/lexer_util.rs"]}
{"id": "C08", "title": "Indentation never leaks out of a construct", "statement": "Writing any statement, expression or block leaves the indentation level, the indentation stack and the function nesting level as they were, so what precedes a statement never shifts the indentation of what follows.", "quantifier": "every syntax tree, every configuration, every starting state", "why_tests_cant": "Opening and closing of indentation is conditional and spread over 70 constructs with dynamic one-line tests.", "anchors": ["src/formatting/decoration.rs:IncIndent", "src/formatting/decoration.rs:DecIndent", "src/parser/lua_ast.rs:Node::configured_write"]}
{"id": "C09", "title": "line_range leaves the rest of the file alone", "statement": "With line_range=a:b, the text before the first and after the last top-level statement that overlaps the selected lines is copied unchanged.", "quantifier": "every accepted source, every range, every configuration", "why_tests_cant": "Ranges cut programs at arbitrary points; each construct has a hand-written copy path.", "anchors": ["src/formatting/util.rs:out_of_range_write", "src/formatting/reconstruction.rs:update_pos_range", "src/parser/lua_ast.rs:VarRoundSuffix"]}
{"id": "C10", "title": "Line ranges map to text positions sanely", "statement": "For every text and every pair of line numbers the selected interval starts at a line start, ends at a line end, is ordered and lies inside the text; unusable numbers fall back to the start or the end of the text; the lookup never goes out of bounds.", "quantifier": "every text, every pair of numbers", "why_tests_cant": "Index arithmetic on the newline table for all texts and numbers.", "anchors": ["src/formatting/util.rs:line_range_to_pos_range"]}
{"id": "C11", "title": "A selected range grows to whole top-level statements", "statement": "After the range has been widened, each top-level statement of the file is either entirely inside or entirely outside the formatted region, and the region still contains the requested one.", "quantifier": "every parsed program and every range", "why_tests_cant": "Depends on the order in which statements widen the range.", "anchors": ["src/formatting/reconstruction.rs:update_pos_range", "src/formatting/reconstruction.rs:reconstruct_node_tree"]}
{"id": "C12", "title": "Quote conversion keeps the string value", "statement": "convert_charstring_to_normalstring rewrites '...' into \"...\" denoting the same Lua string.", "quantifier": "every character string body", "why_tests_cant": "Escapes interact with quotes in unboundedly many ways.", "anchors": ["src/formatting/util.rs:charstring_to_normalstring"]}
{"id": "C13", "title": "A converted string is one well-formed literal", "statement": "The converted text between double quotes is read back by the lexer as exactly one normal string literal, whatever follows it; converting again changes nothing.", "quantifier": "every string body the lexer can produce, every following text", "why_tests_cant": "Universally quantified over bodies and continuations.", "anchors": ["src/formatting/util.rs:charstring_to_normalstring", "src/parser/lexer_util.rs:get_string_ends"]}
{"id": "C14", "title": "Bad options change nothing", "statement": "Setting an unknown option or an option with an ill-formed value leaves the configuration exactly as it was.", "quantifier": "every option name, every value string, every configuration", "why_tests_cant": "All strings.", "anchors": ["src/config.rs:Config::set"]}
{"id": "C15", "title": "Options are independent and the last assignment wins", "statement": "Assignments to two different options commute; assigning an option twice with valid values equals assigning it once with the second value; an assignment changes no other option.", "quantifier": "every pair of names and values, every configuration", "why_tests_cant": "All pairs of about 50 options and all values.", "anchors": ["src/config.rs:Config::set"]}
{"id": "C16", "title": "Config file means its top-level assignments in order", "statement": "Loading a configuration file equals applying, in file order, the assignments 'name = literal' at the top level of the file; every other statement has no effect on the options.", "quantifier": "every configuration file accepted by the parser", "why_tests_cant": "Files are unbounded programs.", "anchors": ["src/config.rs:load_options_from_config", "src/config.rs:reload_format_from_file"]}
{"id": "C17", "title": "Command line format options replace the config file", "statement": "If the command line sets at least one format option the configuration file is not consulted; otherwise the nearest one is used and its absence is reported as an error; line_range does not count as a format option and is kept either way.", "quantifier": "every command line, every file system state", "why_tests_cant": "All command lines and directory trees.", "anchors": ["src/formatter.rs:process_file", "src/config.rs:Config::has_empty_format"]}
{"id": "C18", "title": "The nearest configuration file is used", "statement": "The configuration for a file is taken from the closest ancestor directory that contains a file named .luafmt*.lua, and only from there.", "quantifier": "every directory tree and file path", "why_tests_cant": "Unbounded trees and depths.", "anchors": ["src/file_util.rs:get_file_config", "src/file_util.rs:test_file_in_dir"]}
{"id": "C19", "title": "Directory arguments select exactly the Lua files", "statement": "A directory argument yields exactly the regular files with extension lua whose name does not start with .luafmt: those directly inside without -r, those at any depth with -r; an explicitly named file is always taken.", "quantifier": "every directory tree, every argument", "why_tests_cant": "Unbounded trees.", "anchors": ["src/file_util.rs:get_path_files"]}
{"id": "C20", "title": "In-place mode writes only successful results", "statement": "A file is modified only if -i is given and its formatting succeeded, and then it holds exactly the formatted text; a file that fails to parse, to read or to find a configuration keeps its content; no other file is touched.", "quantifier": "every command line, every file system, every number of files", "why_tests_cant": "All histories of file processing.", "anchors": ["src/main.rs:process_file_path", "src/main.rs:main", "src/formatter.rs:process_file"]}
{"id": "C21", "title": "Files of one run do not influence each other", "statement": "Formatting several files in one run gives each file the result it would get alone, provided no processed file serves as configuration file.", "quantifier": "every list of distinct files, every file system", "why_tests_cant": "All interleavings of files and errors.", "anchors": ["src/main.rs:main"]}
{"id": "C22", "title": "Command line options are read as documented", "statement": "--name=value sets option name, -i/-r/-v and their long forms set the three switches, anything else starting with a dash is ignored; the order of switches is irrelevant and every other argument is a path.", "quantifier": "every argument list", "why_tests_cant": "All strings and orders.", "anchors": ["src/main.rs:parse_options", "src/main.rs:get_options_and_filenames"]}
{"id": "C23", "title": "A crash during in-place writing keeps the old or the new text", "statement": "If the process dies at any point of an in-place run, each file holds either its old content or its complete new content.", "quantifier": "every crash point of every run", "why_tests_cant": "Crash points cannot be enumerated by unit tests.", "anchors": ["src/main.rs:process_file_path"]}
{"id": "C24", "title": "Tokens and gaps tile the source", "statement": "The tokens produced by the lexer are in increasing, non-overlapping position order, each token's text is exactly the source text at its position, and everything between two tokens is blanks and complete comments.", "quantifier": "every text the lexer accepts", "why_tests_cant": "All texts.", "anchors": ["src/parser/lua_lexer.rs:Lexer::next", "src/parser/lexer_util.rs"]}
{"id": "C25", "title": "The syntax tree covers the whole source", "statement": "Reading the tree in order - literal words, names, literals, and the recorded gaps - reproduces the token sequence and visits every gap of the source exactly once.", "quantifier": "every source accepted by the grammar", "why_tests_cant": "About 150 grammar productions build positions by hand.", "anchors": ["src/parser/lua_syntax.lalrpop", "src/parser/lua_ast.rs:Node"]}
{"id": "C26", "title": "The grammar is unambiguous", "statement": "A token sequence has at most one syntax tree, and the parser finds it: parsing is a function of the token sequence.", "quantifier": "every token sequence", "why_tests_cant": "All token sequences.", "anchors": ["src/parser/lua_syntax.lalrpop"]}
{"id": "C27", "title": "Collapsed constructs fit into max_width", "statement": "When a table, an if statement or a function body is put on one line because a force_single_line option asks for it, the inserted text contains no newline and the line it ends on, up to the inserted text, is shorter than max_width.", "quantifier": "every program, configuration and output prefix", "why_tests_cant": "All widths and programs.", "anchors": ["src/formatting/util.rs:test_oneline_no_nl", "src/parser/lua_ast.rs:TableConstructor"]}
{"id": "C28", "title": "Formatting is idempotent", "statement": "Formatting the output again with the same configuration returns it unchanged.", "quantifier": "every accepted source and every configuration", "why_tests_cant": "Second-order property over all programs.", "anchors": ["src/formatter.rs:process_buffer_with_config"]}
{"id": "C29", "title": "The shebang line stays first", "statement": "If the source starts with a shebang line, the output starts with the same line followed by a newline.", "quantifier": "every accepted source beginning with a shebang, every configuration", "why_tests_cant": "All programs.", "anchors": ["src/parser/lua_ast.rs:SheBangChunk", "src/parser/lua_lexer.rs:SheBang"]}
{"id": "C30", "title": "write_newline_at_eof ends the file with a newline", "statement": "With write_newline_at_eof = true the output ends with a newline.", "quantifier": "every accepted source, every configuration with that option", "why_tests_cant": "Depends on how the last gap ends for all programs.", "anchors": ["src/parser/lua_ast.rs:Chunk", "src/formatting/decoration.rs:IfNewLine"]}
{"id": "C31", "title": "Numerals are copied whole", "statement": "Every Lua numeral of the source is one token and appears verbatim, uninterrupted, in the output.", "quantifier": "every Lua numeral, every configuration", "why_tests_cant": "All numerals, signs of exponents, hexadecimal forms.", "anchors": ["src/parser/lexer_util.rs:get_float_end", "src/parser/lua_lexer.rs:Lexer::next"]}
{"id": "C32", "title": "Long brackets close where Lua closes them", "statement": "A long string or long comment opened with level n ends at the first closing bracket of level n, as in the Lua manual.", "quantifier": "every text and level", "why_tests_cant": "All texts.", "anchors": ["src/parser/lexer_util.rs:get_multiline_string_ends"]}
{"id": "C33", "title": "No newlines when all newlines are removed", "statement": "With remove_all_newlines and remove_comments set and no newline_format/write_newline option set, the output contains no newline except inside string literals and after the shebang.", "quantifier": "every accepted source, every such configuration", "why_tests_cant": "All programs.", "anchors": ["src/parser/comment_ast.rs:NewLine", "src/parser/lua_ast.rs:Node::configured_write"]}
{"id": "C34", "title": "Only the configured field separators remain", "statement": "With field_separator = s every separator between table fields in the output is s; a trailing separator is present or absent as write_trailing_field_separator or the one-line rule says.", "quantifier": "every accepted source, every such configuration", "why_tests_cant": "All programs.", "anchors": ["src/formatting/list.rs:cfg_write_sep_list", "src/parser/lua_ast.rs:trailing_separator"]}
{"id": "C35", "title": "Printing terminates", "statement": "Printing terminates on every tree and configuration: the one-line tests re-enter the printer on the same node only with the option that triggers them switched off.", "quantifier": "every tree and configuration", "why_tests_cant": "Termination cannot be tested.", "anchors": ["src/parser/lua_ast.rs:test_oneline_table_cfg", "src/parser/lua_ast.rs:test_oneline_if", "src/parser/lua_ast.rs:test_oneline_function"]}
{"id": "C36", "title": "Standard input mode depends on input and options only", "statement": "Without path arguments the output is a function of standard input and the command line; no file is read or written.", "quantifier": "every argument list without paths, every input, every file system", "why_tests_cant": "All file systems.", "anchors": ["src/main.rs:main"]}
{"id": "C37", "title": "Comment text trimming is stable", "statement": "Trimming a comment text and inserting blank hints, applied twice with the same options, gives the same text as applied once.", "quantifier": "every comment text, all blank hints", "why_tests_cant": "All texts.", "anchors": ["src/parser/comment_ast.rs:Node::configured_write"]}
{"id": "C38", "title": "Rejected sources produce no output", "statement": "If the source has a lexical or syntax error, formatting reports a parsing error whatever the configuration and produces no output text.", "quantifier": "every rejected source, every configuration", "why_tests_cant": "All texts.", "anchors": ["src/formatter.rs:process_buffer_with_config", "src/parser/mod.rs:parse_lua"]}
{"id": "C39", "title": "The layout of the source leaves no trace when all of it is rewritten", "statement": "With remove_spaces_between_tokens and remove_all_newlines set, no line range and no one-line test (force_single_line_table; the other force_single_line options with max_width), two sources with the same tokens give the same result if comments are removed without writing newlines for them, and two sources with the same tokens and comments give the same result if they have no comments or the comment options treat every comment of a gap alike (empty hint_before_comment or no two comments without a token between them, the options for first comments as those for other comments).", "quantifier": "every such configuration, every pair of sources with the same tokens (and comments), accepted or not", "why_tests_cant": "All pairs of layouts of all programs.", "anchors": ["src/formatting/loc_hint.rs", "src/formatting/util.rs:test_oneline", "src/parser/lua_ast.rs:Node::configured_write", "src/parser/comment_ast.rs:Node::configured_write"]}
{"id": "C40", "title": "Bodies, closing words, list items and operators begin lines, indented by their nesting", "statement": "With the newline_format options set to 1 (newline_format_statement, newline_format_table_field and newline_format_var_suffix set) the output parses, and in it every body of an if, elseif, else, while, for, repeat, do and function, every closing word (end, else, elseif, until), the closing brace of a table, every statement of a list but the first, the return behind statements, every field of a table, every expression of a list, every member access and method call of a chain, and every binary operator (with newline_format_binary_op = 2 every second operand) begins a line that starts with one copy of indentation_string for each level of nesting. With write_newline_at_explist_multiline_table = true and write_newline_at_multiline_table = false, and one of the options for expression lists set, every later table of an expression list begins such a line. With write_newline_at_multiline_table = true, unless force_single_line_table is true, the opening brace of every table that is not empty begins such a line. Expression lists and suffix chains with such items are one level deeper if indent_exp_list / indent_var_suffix is true. Inside an if statement, function or table that a force_single_line option put on one line, the options for these constructs ask for no lines.", "quantifier": "every configuration, every accepted source", "why_tests_cant": "All combinations of constructs, nesting depths and options; tests compare a few outputs.", "anchors": ["src/parser/lua_ast.rs:Node::configured_write", "src/formatting/loc_hint.rs", "src/formatting/util.rs:write_indent"]}
{"id": "C41", "title": "The items of one list are indented alike", "statement": "In the output, for each list of statements, table fields, expressions, elseif clauses or chain suffixes, all items for which the options ask for a line begin lines with the same indentation.", "quantifier": "every configuration, every accepted source", "why_tests_cant": "All nestings of lists in operations, tables, functions and calls; the level is kept in a mutable state that every construct changes and has to restore.", "anchors": ["src/parser/lua_ast.rs:Node::configured_write", "src/formatting/list.rs:cfg_write_sep_list", "src/formatting/util.rs:write_indent"]}
{"id": "C42", "title": "Blanks between tokens on one line follow the tokens, not the source", "statement": "With remove_spaces_between_tokens and replace_zero_spaces_with_hint set to true, no line range, and comments either kept behind a non-empty hint_before_comment or removed with an empty one: between two adjacent tokens on one line of the output, with no comment between them, the blanks are determined as follows, whatever blanks the source has. One blank behind a comma, none before it; none inside parentheses and square brackets, none around . and : and behind #; one around = and around the operators with two operands; one around the keywords of statements; none between function and (; one behind a semicolon; the hint of tables behind { and before } (and possibly once more before {); elsewhere at most one blank. There are no blanks before the first token on its line and none at the end of a text that ends with a token. (Sources without a long string directly behind [ and without unfinished numerals, as for C02.)", "quantifier": "every such configuration, every accepted source", "why_tests_cant": "All pairs of adjacent tokens in all constructs, with all blanks and line breaks a source may have between them; tests compare a few outputs.", "anchors": ["src/parser/lua_ast.rs:Node::configured_write", "src/formatting/loc_hint.rs", "src/config.rs:replace_zero_spaces_with_hint"]}
{"id": "C43", "title": "No blanks at the end of a line behind a token", "statement": "With the options of C42 and a table hint of at most one blank: where a line of the output ends behind a token (no comment between the token and the end of the line), the newline follows the token at once. Blanks the source has there are gone, and a hint that would have been written is taken back when the line is broken. (Lines without any token are not covered: a broken line may be followed by a line of blanks where a newline is asked for twice.)", "quantifier": "every such configuration, every accepted source, every token of the output", "why_tests_cant": "The newline may come from the source or from any of the line breaking options, and the hint before it from any construct; a test sees one combination at a time.", "anchors": ["src/formatting/util.rs", "src/formatting/loc_hint.rs", "src/parser/lua_ast.rs:Node::configured_write"]}
{"id": "C44", "title": "hint_before_comment stands before a comment behind a token", "statement": "With the options of C42 and a table hint of at most one blank: where a comment follows a token on its line, exactly hint_before_comment stands between the token and the two minus signs of the comment, whatever blanks the source has there and whichever tokens stand around.", "quantifier": "every such configuration, every accepted source, every token of the output that is followed by a comment on its line", "why_tests_cant": "Comments may stand in every gap of every construct, each with its own hint; tests show a few of them.", "anchors": ["src/formatting/loc_hint.rs", "src/config.rs:hint_before_comment"]}
{"id": "C45", "title": "A construct is on one line shorter than max_width, or broken at all its places", "statement": "With max_width and force_single_line_if, force_single_line_table, force_single_line_top_level_function (for functions that are not inside another one or a table) or force_single_line_scoped_function (for those that are): in the tree of the output every if statement, table and function either is (or is inside one that is) on a single line whose part up to its end is shorter than max_width, or lines begin at every place for which newline_format_if, newline_format_table_constructor or newline_format_function = 1 asks for one, all indented relative to the same level. There is nothing in between, such as a body on a line of its own with its end kept behind it.", "quantifier": "every configuration, every accepted source, every construct of the output", "why_tests_cant": "All widths, nestings of constructs in each other and prefixes of the line; the printer decides by trial printing, with options switched off in a copy of the configuration that is passed on to everything inside.", "anchors": ["src/formatting/util.rs:test_oneline_no_nl", "src/parser/lua_ast.rs:Node::configured_write"]}
{"id": "C46", "title": "Every comment begins a line when the comment options ask for it", "statement": "With newline_format_oneline_comment, newline_format_multiline_comment, newline_format_first_oneline_comment and newline_format_first_multiline_comment all 1 and no line range: in the output, at every place between two tokens (or before the first or behind the last) where a comment begins, the text up to the comment ends with a newline and an indentation of some levels (or, behind a shebang line, hint_before_comment).", "quantifier": "every configuration with these options, every accepted source, every comment of the output", "why_tests_cant": "All sequences of comments of both kinds, newlines and blanks between any two tokens, inside all constructs and nestings; the newline is written by three different list printers and the outer printer may add or take back blanks and newlines around the block.", "anchors": ["src/parser/comment_ast.rs:need_newline", "src/parser/comment_ast.rs:need_first_newline", "src/formatting/loc_hint.rs:CommentLocHint", "src/formatting/decoration.rs:IfNewLine"]}
{"id": "C47", "title": "Line breaks and empty lines of the source are kept", "statement": "Unless remove_all_newlines, remove_comments, force_single_line_table, write_trailing_field_separator or a hint for the text of long comments is set, or there is a line range: the output has as many tokens as the source, and between any two neighbouring tokens (also before the first and behind the last) it has at least as many line breaks as the source has there. The only exception: if remove_single_newlines is set, a gap of blanks with exactly one newline may lose it. In particular empty lines are never taken away.", "quantifier": "every configuration without the named options, every accepted source, every pair of neighbouring tokens", "why_tests_cant": "Every construct has its own places with their own hints, and each place passes its gap through the comment parser, three list printers and two kinds of newline handling; a gap may hold any sequence of blanks, newlines and comments. A lost empty line in one of them is not noticed by tests of single constructs.", "anchors": ["src/parser/comment_ast.rs", "src/formatting/list.rs", "src/formatting/loc_hint.rs:CommentLocHint", "src/formatting/decoration.rs:IfNewLine"]}
{"id": "C48", "title": "Without options about lines, no line break is added or moved", "statement": "If none of the options of C47 is set, no numeric option (newline_format_*, max_width, ...) has a value, no option writes newlines at the end or in tables, and no hint contains a newline: before every token of the output there are at most as many line breaks as before the same token of the source, and exactly as many unless remove_single_newlines is set. Exceptions: the } directly behind a { (an empty table), and the end of the text if its last comment is not followed by a newline.", "quantifier": "every such configuration, every accepted source, every token", "why_tests_cant": "Spacing options act on every gap of every construct; that none of the printers falls back to writing a newline of its own can only be seen by going through all of them for all texts of gaps.", "anchors": ["src/formatting/decoration.rs:IfNewLine", "src/formatting/loc_hint.rs", "src/formatting/list.rs", "src/parser/comment_ast.rs", "src/parser/lua_ast.rs:TableConstructor"]}
{"id": "C49", "title": "Behind a long comment stands exactly its hint", "statement": "If remove_spaces_between_tokens and replace_zero_spaces_with_hint are set and there is no line range: where a token (or the end of the text) follows a long comment on the same line, the text between them is exactly hint_after_multiline_comment (nothing if it is not set). No blank of the source is left, and the hint of the token itself is not added. Only before { and } the hint of tables may follow it.", "quantifier": "every such configuration with blank hints, every accepted source whose tokens stay apart, every token of the output", "why_tests_cant": "A gap may hold any number of comments, blanks and newlines, and the gap before a token may be made of several places of the grammar (optional parts, empty lists, dropped separators), each with its own hint. Tests look at few constructs with one comment each.", "anchors": ["src/parser/comment_ast.rs", "src/formatting/loc_hint.rs", "src/formatting/list.rs", "src/parser/lua_ast.rs:TableConstructor"]}
{"id": "C50", "title": "Lines begin with whole levels of indentation", "statement": "If remove_spaces_between_tokens and replace_zero_spaces_with_hint are set, there is no line range, the indentation string and the hint behind comments have no newline and the hint of tables is at most one blank: a token of the output that has only spaces and tabs before it on its line stands behind a whole number of copies of indentation_string (possibly none). No blank of the source is left there and no hint of the token is added. Only before { and } the hint of tables may follow the indentation.", "quantifier": "every such configuration with blank hints, every accepted source whose tokens stay apart, every token of the output but the one behind a #! line", "why_tests_cant": "A line break may come from the source, from an option of any construct, or from a comment, and the blanks behind it from several places of the grammar that each write their own hint. That no combination leaves a stray blank at the beginning of a line needs all constructs and all texts of gaps.", "anchors": ["src/formatting/decoration.rs:IfNewLine", "src/formatting/util.rs:indent", "src/formatting/loc_hint.rs", "src/formatting/list.rs", "src/parser/comment_ast.rs"]}
{"id": "C51", "title": "An in-place run keeps the programs of a project", "statement": "After any run of the program, whatever its arguments and whether or not it was stopped by a panic, each file of the file system holds its old text or a text that is accepted and is the same program.", "quantifier": "every command line, working directory, input and directory tree", "why_tests_cant": "It is a claim about all projects and all command lines, and joins the handling of arguments, configuration files, file selection and writing with the formatting itself.", "anchors": ["src/main.rs:main", "src/main.rs:process_file_path", "src/formatter.rs:process_file"]}
{"id": "C52", "title": "Lines begin only where an option asks for them", "statement": "If remove_all_newlines and remove_comments are set, there is no line range, no comment option of newline_format_* is 1 and no hint has a newline: a token of the output that has only spaces and tabs before it on its line, and a line before, stands at a place of the syntax tree of the output where an option of the configuration asks for a line break: the option of its own construct (newline_format_if for the parts of an if, and so on), newline_format_statement for statements, newline_format_table_field for fields, newline_format_exp_list(_first) for expressions, newline_format_var_suffix for members of chains, newline_format_binary_op for operators, max_width for closing braces, or the options for multi-line tables. No option breaks lines in constructs of another kind.", "quantifier": "every such configuration with blank hints, every accepted source without a #! line whose tokens stay apart, every token of the output but separators of fields", "why_tests_cant": "Each construct decides about its lines in its own way, with trial runs and state shared between nested constructs. That none of them breaks a line it was not asked to break is a negative claim about all trees and all 80 options together.", "anchors": ["src/formatting/list.rs", "src/formatting/decoration.rs", "src/parser/lua_ast.rs", "src/formatting/util.rs:test_oneline", "src/config.rs:Config"]}
{"id": "C53", "title": "Bad arguments and bad settings are reported, good arguments are not", "statement": "What a run writes on stderr begins with exactly one complaint for each argument that begins with a dash and has no effect, in the order of the arguments: 'unrecognized option' if it is neither --name=value nor a switch, 'invalid option name' if no option has that name, 'invalid option value' if the value is not well-formed for the option. There is no complaint about an argument that is a switch or assigns a well-formed value to an existing option. If no argument sets a format option, each setting in the configuration file of a selected file that names no option, or has a value that is not well-formed, is reported in the same way.", "quantifier": "every list of arguments, working directory, standard input and file system", "why_tests_cant": "A misspelled option that is ignored silently is noticed only by its missing effect. The claim ranges over all names and all texts of values; the messages are written by one macro arm per kind of option and are not checked by any test.", "anchors": ["src/main.rs:parse_options", "src/config.rs:Config::set", "src/config.rs:Config::load_options_from_config"]}
{"id": "C54", "title": "Nothing fails silently", "statement": "If a run is not ended by a panic, each path argument that cannot be resolved is reported on stderr, and each selected file is reported as failed, or its formatted text is in the file at the end of the run (with -i) or printed (without). Conversely each message about files names an argument that cannot be resolved, a selected file whose formatting failed with that error, or, with -i, a selected file that may not be written. Without path arguments a failure to format the standard input is reported and nothing is printed; otherwise the text is printed and nothing is reported.", "quantifier": "every list of arguments, working directory, standard input and file system; files may be selected more than once", "why_tests_cant": "The program always exits with status 0, so the messages are the only sign of a failure. Which files fail depends on the whole tree of directories, on their configuration files, and on files that an earlier step of the same run has rewritten.", "anchors": ["src/main.rs:main", "src/main.rs:process_file_path", "src/file_util.rs:get_path_files"]}
{"id": "C55", "title": "The verbose listing shows the configuration", "statement": "The listing of options that -v prints has one line for each option that is set, with its name and value, no line for any other option, and nothing else but the braces around it. Different configurations have different listings: no option is missing, no two values are written alike, and no text value can imitate another line.", "quantifier": "every configuration, every name and value, any table of printable characters", "why_tests_cant": "The listing is fifty hand-written lines that repeat the fields of a struct. That it is faithful is a claim about all values of all options together, including texts with quotes, backslashes and newlines.", "anchors": ["src/config.rs:Display for Config", "src/formatter.rs:process_buffer_with_config"]}
