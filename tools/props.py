import json
P=[]
def p(title, statement, quantifier, why, anchors):
    P.append(dict(id="C%02d"%(len(P)+1), title=title, statement=statement, quantifier=quantifier, why_tests_cant=why, anchors=anchors))

# ---- paths
p("Rendered paths parse back to the same path",
  "For a non-empty path whose elements contain only printable-ASCII characters or the escapable controls \\b \\f \\n \\r \\t, path::new_path(p.render()) succeeds and returns a path equal to p.",
  "every non-empty list of element strings over the stated alphabet (elements may be empty, contain dots, quotes, backslashes, spaces, hash signs, dollar signs...)",
  "Quoting, escaping, number recognition, true/false/null recognition and dot splitting interact; a sample of element strings never covers all combinations of neighbouring elements.",
  ["lib/src/path.cc: path::render, path::append_to_string_builder, path::has_funky_chars", "lib/src/path_parser.cc: parse_path", "lib/src/config_util.cc: render_json_string", "lib/src/tokenizer.cc"])
p("The fast path-expression parser agrees with the full parser",
  "Whenever the speculative fast path parser accepts a path expression, the tokenizer-based parser accepts the same expression and yields the same path, so the optimisation is unobservable.",
  "every path-expression string accepted by the fast parser",
  "The two parsers are written independently (one scans for dots backwards, the other tokenizes, recognises keywords and numbers); agreement on samples says nothing about the remaining strings.",
  ["lib/src/path_parser.cc: looks_unsafe_for_fast_parser, fast_path_build, speculative_fast_parse_path, parse_path_expression, add_path_text"])
p("Path operations behave like list operations",
  "Seen as the list of its elements: prepend concatenates (and is associative), length of a non-empty path is the number of elements, parent drops the last element and last returns it, remainder drops the first, sub_path(n) drops n elements when n is smaller than the length, starts_with holds exactly for list prefixes (non-empty receiver), equality is elementwise equality and path_builder accumulates keys in append order.",
  "all paths and all indices",
  "Algebraic laws over unbounded lists.",
  ["lib/src/path.cc", "lib/src/path_builder.cc", "lib/inc/hocon/path.hpp"])
p("Accepted path expressions never yield empty unquoted elements",
  "path::new_path either throws or returns a non-empty path; an element of the result is the empty string only if the expression contains a quoted string.",
  "every path-expression string",
  "A universally quantified rejection property: leading, trailing and doubled dots may appear anywhere.",
  ["lib/src/path_parser.cc: parse_path_expression"])
# ---- strings, tokens
p("JSON string rendering round-trips through the tokenizer",
  "Reading the text produced by rendering a string as a JSON string literal yields exactly one quoted-string token whose value is the original string and whose text is the rendered text, whatever follows it in the input (except a further double quote directly after an empty string).",
  "every string over printable ASCII and the escapable controls, and every following input",
  "Escapes interact at arbitrary positions in arbitrary strings.",
  ["lib/src/config_util.cc: render_json_string", "lib/src/tokenizer.cc: pull_quoted_string, pull_escape_sequence"])
p("Tokens cover the input text exactly",
  "For every input that tokenizes successfully, concatenating the texts of the tokens in order gives back the input, character for character.",
  "every input string, CONF and JSON flavour",
  "Document rendering relies on it for every input; a sample of documents cannot show that no whitespace, comment, number or escape form loses a character.",
  ["lib/src/tokenizer.cc: token_iterator", "lib/src/tokens.cc"])
p("Tokenizing always terminates with exactly one START and one END",
  "Tokenizing any input either fails with an exception or produces a finite sequence that begins with START, ends with END and contains no other START or END token.",
  "every input string",
  "Termination and shape for unbounded inputs.",
  ["lib/src/tokenizer.cc: token_iterator::has_next, next, pull_next_token"])
p("Token line numbers count newlines",
  "The line number of every newline token is one more than the number of newline characters in the text before it, and any other token created from the input carries a line number equal to one plus the number of newline characters up to its end.",
  "every input and every token in it",
  "Positions in unbounded inputs with multi-line strings.",
  ["lib/src/tokenizer.cc: pull_next_token, append_triple_quoted_string"])
p("Blanks around punctuation are insignificant",
  "Adding blanks (non-newline whitespace) at the start of the input, or after any prefix that tokenizes by itself and whose last token is a structural character ({ } [ ] : = , +=) or a newline, does not change the sequence of tokens other than ignored whitespace.",
  "every input and every amount of blanks",
  "Ranges over all inputs and all amounts of whitespace.",
  ["lib/src/tokenizer.cc: whitespace_saver, next_char_after_whitespace, queue_next_token"])
# ---- documents
p("Parsing and rendering a document preserves the text",
  "If config_document_factory::parse_string(s) succeeds, render() on the result returns s.",
  "every document string, CONF and JSON",
  "Universal round trip over an unbounded language including comments, odd whitespace, trailing commas, missing braces and error recovery by put_back.",
  ["lib/src/config_document_parser.cc", "lib/src/nodes", "lib/src/simple_config_document.cc: render"])
p("JSON mode accepts only the JSON token language",
  "A document accepted with syntax JSON contains no unquoted text, no substitution, no comment, no '=' or '+=' separator and its root is an object or array.",
  "every string accepted in JSON mode",
  "A rejection property over all inputs.",
  ["lib/src/config_document_parser.cc", "lib/src/tokenizer.cc"])
p("Removing a path from a document really removes it",
  "After doc.without_path(p), has_path(p) is false (for JSON documents: for every path text p that has_path accepts), and if has_path(p) was already false the document text is unchanged.",
  "every document tree and every path, including repeated and dotted keys at any depth",
  "Duplicates of a key in dotted and nested form can occur any number of times at any depth.",
  ["lib/src/simple_config_document.cc: without_path, has_path", "lib/src/nodes/config_node_object.cc: remove_value_on_path, change_value_on_path, has_value"])
p("Setting a path in a document makes it present",
  "If doc.with_value_text(p, text) succeeds on a document with an object root then has_path(p) is true on the result (for JSON documents: for every path text p that has_path accepts).",
  "every document tree with an object root, every path, every value",
  "Depends on arbitrary existing duplicates and nesting.",
  ["lib/src/simple_config_document.cc: with_value_text", "lib/src/nodes/config_node_object.cc: set_value_on_path, change_value_on_path, add_value_on_path"])
p("Replacing an existing value touches only that value's text",
  "If the path p occurs exactly once in the document, with_value_text(p, text) yields the old text with only the value's text replaced; everything before and after is unchanged.",
  "every document tree in which p has one occurrence",
  "Text preservation over all surrounding text.",
  ["lib/src/nodes/config_node_object.cc: change_value_on_path", "lib/src/nodes/config_node_field.cc: replace_value"])
p("Editing one path leaves unrelated paths alone",
  "with_value_text(p, ...) and without_path(p) do not change has_path(q) for any q such that neither of p, q is a prefix of the other.",
  "every document, every pair of unrelated paths",
  "Frame property over all other paths.",
  ["lib/src/nodes/config_node_object.cc"])
# ---- values: merge
p("Fallback precedence",
  "For resolved configs, a value found by get_value in a.with_fallback(b) at a path is a's value if a has a non-object there (or b has nothing), b's if a has nothing on the way and the merge of both objects if both are objects; i.e. merging is the keywise left-biased deep merge.",
  "all resolved objects a, b and all paths",
  "Trees of unbounded depth and width.",
  ["lib/src/values/config_value.cc: with_fallback", "lib/src/values/simple_config_object.cc: merged_with_object"])
p("Merging is associative",
  "For resolved configs, a.with_fallback(b).with_fallback(c) and a.with_fallback(b.with_fallback(c)) contain the same values at the same paths.",
  "all triples of resolved objects",
  "Algebraic law; the documentation calls with_fallback 'the associative operation'.",
  ["lib/inc/hocon/config.hpp", "lib/src/values/config_value.cc: with_fallback", "lib/src/values/simple_config_object.cc: merged_with_object"])
p("Merging has the empty object as unit and is idempotent",
  "For resolved configs a.with_fallback(empty) and empty.with_fallback(a) have exactly a's contents and a.with_fallback(a) has exactly a's contents.",
  "all resolved objects",
  "Algebraic law over unbounded trees.",
  ["lib/src/values/config_value.cc: with_fallback", "lib/src/values/simple_config_object.cc"])
p("Merged key set is the union",
  "The root keys of a.with_fallback(b) are exactly the keys of a and the keys of b, for resolved or unresolved simple objects.",
  "all objects a, b",
  "Unbounded maps.",
  ["lib/src/values/simple_config_object.cc: merged_with_object"])
p("A non-object value hides everything below it",
  "Once a resolved non-object (scalar, null or list) is reached in a fallback chain, adding further fallbacks never changes the result.",
  "all resolved non-object values and all fallback chains of any length",
  "Chains of any length.",
  ["lib/src/values/config_value.cc: with_fallback, ignores_fallbacks, with_fallbacks_ignored"])
# ---- parse to values
p("Repeated keys: objects merge, anything else is overwritten by the last",
  "For documents without substitutions, the value at a key in a parsed object is the fold of all values assigned to it in order: a later non-object replaces, a later object merges over an earlier object.",
  "every sequence of fields, any number of repetitions",
  "Any number and order of duplicate keys.",
  ["lib/src/config_parser.cc: parse_object"])
p("Dotted keys are nested objects",
  "A field with a dotted key a1.a2...an : v contributes exactly the nested objects { a1 : { a2 : ... { an : v } } }.",
  "every path of any length and every value, at any position in an object",
  "Any length of path.",
  ["lib/src/config_parser.cc: create_value_under_path, parse_object"])
p("Values parsed from JSON text survive render and re-parse",
  "Rendering a resolved value with concise JSON options gives text that parses in JSON mode to an equal value.",
  "every resolved object or list with strings over the supported alphabet, keys that are not empty and numbers whose text denotes them (integers and everything parsed from JSON; a double given through the API is written with six decimals)",
  "Universal round trip through renderer, tokenizer, document parser and value parser.",
  ["lib/src/values/simple_config_object.cc: render", "lib/src/values/simple_config_list.cc: render", "lib/src/config_document_parser.cc", "lib/src/config_parser.cc"])
# ---- resolve
p("Resolving a resolved config is a no-op",
  "If is_resolved() is true then resolve() succeeds, returns the same contents and is_resolved() stays true, whatever the options and source.",
  "every resolved config",
  "Unbounded trees.",
  ["lib/src/config.cc: resolve, resolve_with", "lib/src/resolve_context.cc: resolve, real_resolve"])
p("Successful resolve leaves no substitution",
  "If resolve() with default options returns normally, the result is_resolved() and contains no reference, concatenation or delayed merge anywhere.",
  "every unresolved config",
  "All configurations, nesting of all unresolved forms.",
  ["lib/src/resolve_context.cc", "lib/src/values/config_reference.cc", "lib/src/values/config_concatenation.cc", "lib/src/values/config_delayed_merge.cc", "lib/src/values/simple_config_object.cc", "lib/src/values/simple_config_list.cc"])
p("Substitutions resolve to the value at the referenced path",
  "In a successfully resolved config a field that was exactly ${p} has the same contents as the resolved value at path p, and a field that was ${?p} with nothing at p (and no environment variable) is absent.",
  "every config and every reference in it",
  "Reference graphs of any shape.",
  ["lib/src/resolve_source.cc: lookup_subst", "lib/src/values/config_reference.cc: resolve_substitutions"])
p("Reference cycles are reported, not looped on",
  "resolve() terminates for every config; a cycle of required references makes it throw.",
  "every config, in particular every cyclic reference graph",
  "Termination over all reference graphs.",
  ["lib/src/resolve_context.cc: add_cycle_marker", "lib/src/values/config_reference.cc"])
p("A missing required substitution makes resolve throw",
  "If the config contains a required reference to a path that has no value and no environment variable is set for it, resolve() with default options throws.",
  "every config with such a reference in any position",
  "Reference may occur anywhere in an unbounded tree.",
  ["lib/src/values/config_reference.cc", "lib/src/config_resolve_options.cc"])
# ---- getters
p("has_path agrees with the getters",
  "On a resolved config and a valid path: get_value(p) returns normally iff has_path(p); get_is_null(p) returns normally iff has_path_or_null(p); has_path(p) implies has_path_or_null(p), the difference being exactly null values.",
  "all resolved configs and paths",
  "All trees and paths, including paths that run through scalars, nulls and lists.",
  ["lib/src/config.cc: has_path, has_path_or_null, get_value, get_is_null, find, find_or_null, peek_path"])
p("entry_set lists exactly the non-null leaves",
  "The path/value pairs of entry_set() are exactly the pairs of a rendered path and the non-null, non-object value found there by get_value; distinct leaves give distinct path expressions.",
  "all resolved configs",
  "All trees; needs injectivity of path rendering.",
  ["lib/src/config.cc: entry_set, find_paths"])
p("Integer getters are exact or throw",
  "get_int returns n only if the stored number is an integer n representable in 32 bits (whole-valued numbers stored as text included); numbers outside the range throw; get_long returns the stored 64-bit integer unchanged.",
  "all 64-bit integers and all stored forms",
  "64-bit range.",
  ["lib/src/values/config_number.cc: int_value_range_checked, new_number", "lib/src/config.cc: get_int, get_long", "lib/src/default_transformer.cc"])
p("Type conversions in getters are deterministic and only widen as documented",
  "get_string succeeds on every scalar and returns its text; get_bool succeeds exactly on booleans and the strings true/yes/on and false/no/off; a list or object is never converted to a scalar and a scalar never to an object.",
  "all values",
  "All values of all types.",
  ["lib/src/default_transformer.cc: transform", "lib/src/config.cc"])
p("with_value makes the value retrievable and keeps the rest",
  "config.with_value(p, v).get_value(p) is v (for non-null v), and values at paths unrelated to p are unchanged.",
  "all configs, paths, values",
  "All trees; the documentation promises replacement.",
  ["lib/src/values/simple_config_object.cc: with_value", "lib/src/config.cc: with_value"])
p("without_path removes the path and nothing else",
  "config.without_path(p).has_path(p) is false and values at paths unrelated to p are unchanged.",
  "all configs and paths",
  "All trees and paths.",
  ["lib/src/values/simple_config_object.cc: without_path", "lib/src/config.cc"])
p("with_only_path keeps the path and nothing else",
  "config.with_only_path(p).get_value(p) equals the original value at p when there is one, and no path unrelated to p remains.",
  "all configs and paths",
  "All trees and paths.",
  ["lib/src/values/simple_config_object.cc: with_only_path, with_only_path_or_null"])
p("at_path and at_key nest a value",
  "v.at_path(p) is a config whose only leaf chain is p: get_value(p) gives v, and only prefixes of p lead to anything else; v.at_key(k) is the same with a single key.",
  "all values and paths",
  "Any depth.",
  ["lib/src/values/config_value.cc: at_path, at_key", "lib/src/config.cc"])
p("Equality of values is structural",
  "operator== on values is reflexive, symmetric, and two objects are equal iff they have the same keys with equal values (numbers compare by numeric value across int and long).",
  "all pairs of resolved values",
  "All pairs of trees.",
  ["lib/src/values/simple_config_object.cc: operator==", "lib/src/values/simple_config_list.cc: operator==", "lib/src/values/config_number.cc: operator=="])
# ---- durations
p("Duration arithmetic is exact and truncating",
  "For an integer n with unit u whose number of seconds fits in 64 bits, get_duration(p, v) returns n*u/v truncated towards zero if it fits in 64 bits, and throws otherwise.",
  "all 64-bit n and all pairs of units",
  "2^64 values, overflow boundaries.",
  ["lib/src/config.cc: convert, get_duration, parse_duration"])
p("Duration unit names",
  "A unit suffix is accepted iff it is one of the documented abbreviations or singular/plural words, and each accepted spelling denotes its unit; a number without unit is milliseconds.",
  "all unit strings",
  "All strings; rejection of everything else.",
  ["lib/src/config.cc: get_units, parse_duration"])
# ---- factory etc
p("from_any_ref and unwrapped are inverse",
  "For every plain C++ value tree x, config_value_factory::from_any_ref(x)->unwrapped() is x (string-keyed maps up to order). unwrapped() on a value that still contains a substitution anywhere throws.",
  "every unwrapped_value tree",
  "Unbounded nesting.",
  ["lib/src/config_value_factory.cc", "lib/src/values/*.cc: unwrapped"])
p("Concatenation of pieces",
  "Concatenating resolved pieces: scalars give the string of their texts in order with the whitespace between them, lists give their elements in order, objects merge with later pieces winning, and mixing lists/objects with scalars throws.",
  "every list of resolved pieces",
  "Lists of any length, mixtures in any order.",
  ["lib/src/values/config_concatenation.cc: consolidate, join, concatenate"])
p("Parse options are honoured",
  "config::parse_string(s, options) parses s with the syntax selected in options; setters on options change only their own field.",
  "all option values and all strings",
  "All strings.",
  ["lib/src/parseable.cc: parse, fixup_options", "lib/src/config.cc: parse_string", "lib/src/config_parse_options.cc"])
p("Include depth is bounded",
  "A cyclic include makes parsing throw after at most 50 nested includes instead of recursing without bound.",
  "every include graph",
  "All include graphs.",
  ["lib/src/parseable.cc: parse, MAX_INCLUDE_DEPTH"])
p("Parsing without extension merges .conf over .json",
  "parse_file_any_syntax(base) without extension returns the merge of base.conf over base.json, and with allow_missing=false succeeds iff at least one of them parses.",
  "all file-system contents",
  "All combinations of file contents and options.",
  ["lib/src/simple_includer.cc: from_basename"])
p("Merging origins never loses comments",
  "Merging a non-empty list of origins succeeds and every comment line of every input origin occurs in the merged origin.",
  "every non-empty list of origins",
  "Lists of any length with data-dependent association order.",
  ["lib/src/simple_config_origin.cc: merge_origins, merge_two, merge_three, similarity"])
p("`+=` appends to the list at the same key",
  "A field k += v is equivalent to k = ${?k} [v] for the full path of k, at any nesting depth.",
  "all nesting depths and keys",
  "Any depth.",
  ["lib/src/config_parser.cc: parse_object, full_current_path"])
p("Renderer separators are well-formed",
  "Rendering an object or list concisely puts exactly one comma between consecutive entries and none before the first or after the last.",
  "objects and lists of any size",
  "Any size.",
  ["lib/src/values/simple_config_object.cc: render", "lib/src/values/simple_config_list.cc: render"])
p("Malformed documents are reported by an exception, never by undefined behaviour",
  "Parsing any document string either succeeds or throws; it never dereferences a null pointer, reads an uninitialised variable or converts an out-of-range floating-point value.",
  "every document string",
  "Safety over all inputs.",
  ["lib/src/config_document_parser.cc: parse_key", "lib/src/path_parser.cc: parse_path_expression", "lib/src/tokenizer.cc: pull_escape_sequence", "lib/src/values/config_number.cc: new_number"])
p("Document edits terminate",
  "with_value_text and without_path on any parsed or edited document, with any path and any value text, return a document or throw; they never loop forever.",
  "every document reachable by parsing and editing, every path string and every value text",
  "Termination over all inputs; a test that hangs only shows one input.",
  ["lib/src/nodes/config_node_complex_value.cc: indent_text", "lib/src/nodes/config_node_object.cc: add_value_on_path", "lib/src/simple_config_document.cc: with_value_text"])
p("The text of an edited document parses again",
  "If with_value_text(p, text) returns a document, the rendering of that document parses successfully with the same syntax.",
  "every document, path and value text",
  "All documents; depends on commas, newlines and indentation around the insertion point.",
  ["lib/src/nodes/config_node_object.cc: add_value_on_path, set_value_on_path"])
p("Getter failures have the documented exception class",
  "A getter called with a valid path throws missing_exception if there is no value at the path, null_exception if the value there is null, and wrong_type_exception if it cannot be converted to the requested type.",
  "all resolved configs, paths and requested types",
  "A test that catches config_exception passes for every subclass; that the subclass survives the rethrow in nested lookups depends on all intermediate frames.",
  ["lib/inc/hocon/config.hpp (class documentation)", "lib/src/config.cc:config::find_or_null", "lib/src/config.cc:config::find_key_or_null", "lib/inc/hocon/config_exception.hpp"])
p("Durations with a decimal point",
  "A duration whose number is written with a decimal point reads as the same amount as the integer spelling when the fraction is zero ('1.0 s' equals '1 s').",
  "every number text, unit and spacing",
  "All number texts; depends on the floating-point classification of the intermediate results.",
  ["lib/src/config.cc: config::convert(double, time_unit)", "lib/src/config.cc: config::parse_duration"])
p("A merged origin starts at the first line",
  "Merging origins of one file yields an origin whose line_number is the smallest line number of the inputs.",
  "every list of origins of one file",
  "Lists of any length; the association order depends on the data.",
  ["lib/src/simple_config_origin.cc: merge_two, merge_three, merge_origins"])
p("List getters agree with scalar getters",
  "get_bool_list, get_int_list, get_long_list, get_double_list, get_string_list, get_object_list and get_config_list return the elements of the list at the path in order, each converted as the scalar getter of that type converts it, and throw a config_exception if some element cannot be converted.",
  "all resolved configs, paths, list lengths and element types",
  "Lists of any length with elements of any type.",
  ["lib/src/config.cc: get_*_list", "lib/inc/hocon/config.hpp: get_homogeneous_unwrapped_list"])
p("Changing an origin changes only what was asked",
  "with_line_number(n) sets the line and keeps description and comments; with_comments(c) makes the comments exactly c and keeps line and description; appending or prepending comments loses none.",
  "all origins, line numbers and comment lists",
  "All comment lists, including empty and equal ones.",
  ["lib/src/simple_config_origin.cc: with_line_number, with_comments, append_comments, prepend_comments"])
p("Included fields act where the include statement stands",
  "Parsing an object with include statements gives the object one gets when every include statement is replaced by the fields of the included object: they override what is written before the statement and are overridden by what is written after it.",
  "every object without substitutions, any number and position of include statements and any included objects",
  "All combinations of fields, nested keys and includes.",
  ["lib/src/config_parser.cc: parse_include, parse_object"])
p("Substitutions in an included file refer to the place of inclusion",
  "If a file is included inside an object at path p, a substitution ${x} written in that file is looked up at p.x.",
  "every including file, depth of the include statement and included file",
  "All nestings of includes; a test with an include at the root cannot see the difference.",
  ["lib/src/config_parser.cc: parse_include", "lib/inc/hocon/config_value.hpp: relativized", "lib/src/simple_config_object.cc"])
p("Relative include names are relative to the including file",
  "An include statement with a relative file name reads the file of that name in the directory of the including file, whatever the working directory is.",
  "every including file in any directory and every relative name, with or without extension",
  "All directory and name combinations; tests run in one working directory.",
  ["lib/src/parseable.cc: relative_to, set_cur_dir", "lib/src/simple_includer.cc: from_basename"])
p("Building values from an accepted text has defined behaviour",
  "If the syntax of a text (and of the files it includes) can be read without undefined behaviour, then turning it into values also has defined behaviour: parse_string and parse_file_any_syntax return a config or throw.",
  "every text, every set of files and every way they include each other",
  "Safety over all inputs.",
  ["lib/src/config_parser.cc", "lib/src/config_concatenation.cc: concatenate, join", "lib/src/config_value.cc: with_fallback", "lib/src/parseable.cc", "lib/src/simple_includer.cc"])
p("Every JSON document is read as what it says",
  "A JSON document, with any whitespace around its tokens, is accepted both in JSON mode and as HOCON, and yields exactly the value that the JSON grammar assigns to it: same fields, elements, strings, numbers.",
  "every RFC 8259 text whose root is an object or array, with ASCII characters in strings (any escapes), distinct keys per object and integers within int64",
  "All texts of a grammar, unbounded nesting.",
  ["lib/src/tokenizer.cc", "lib/src/config_document_parser.cc: parse, parse_object, parse_array", "lib/src/config_parser.cc: parse_value, parse_object, parse_array"])
p("Rendering does not depend on the order of the hash map",
  "Two configurations with the same content render to the same text with the same options, whatever the order in which their fields were inserted or are iterated, at any depth.",
  "all values, resolved or not, and all render options without comments",
  "The iteration order of an unordered map is not controlled by tests.",
  ["lib/src/values/simple_config_object.cc: render, compare", "lib/src/values/simple_config_list.cc: render", "lib/src/values/config_delayed_merge.cc: render"])
p("HOCON's shorthand means what it says",
  "A document may leave out the root braces, separate fields and list elements by commas or newlines, end with a separator, write ':' or '=' or nothing before '{', use dotted and quoted keys, unquoted words, values of several words, triple quotes, and put '#' or '//' comments in any gap. Each such document is accepted and yields exactly the value it denotes; a repeated key merges objects and otherwise the later value wins.",
  "every text of the stated grammar (no substitutions, includes, += or concatenation of objects and lists; ASCII strings), with unbounded nesting and any mixture of the forms",
  "All texts of a grammar, all combinations of the forms; tests cover some forms one at a time.",
  ["lib/src/tokenizer.cc", "lib/src/config_document_parser.cc: parse, parse_object, parse_array, check_element_separator, consolidate_values", "lib/src/config_parser.cc: parse_object, parse_array, parse_concatenation", "lib/src/path_parser.cc"])
p("HOCON rendering reads back to an equal configuration",
  "A resolved configuration rendered as HOCON (json = false, formatted or concise, without comments) can be parsed again and gives an equal configuration; hence parsing a document, rendering it with any options and parsing the result again changes nothing.",
  "all resolved objects with strings over printable ASCII and the escapable controls and non-empty keys; for the second part every document of the grammar of C62 with an object root",
  "All configurations: unquoted or quoted strings, sections, nesting and separators in all combinations.",
  ["lib/src/values/simple_config_object.cc: render", "lib/src/values/simple_config_list.cc: render", "lib/src/config_value.cc: render", "lib/src/config_util.cc: render_string_unquoted_if_possible", "lib/src/config_document_parser.cc", "lib/src/config_parser.cc"])
p("What is written in a document is what the getters return",
  "After parsing and resolving a document, asking with the text of a key (any spelling, sections joined by periods) returns the value that the document gives to it: the integer, boolean, string or list as written by the last field for that path, in whatever section or dotted form; and a path about which the document says nothing is absent.",
  "every text of the grammar of C62, every path and every spelling of its key, all parse and resolve options",
  "End to end over all texts and keys: lexing, parsing, merging, path expressions and conversions must agree.",
  ["lib/src/config.cc: get_value, get_int, get_long, get_string, get_bool, get_list, has_path", "lib/src/path_parser.cc: parse_path", "lib/src/config_parser.cc: parse_object", "lib/src/tokenizer.cc", "lib/src/config_document_parser.cc"])

p("A configuration whose substitutions make sense resolves, to the value they describe",
  "resolve() succeeds and returns the value the settings describe: a substitution stands for the value at its path (or the environment variable, or nothing if optional), the newest value of a setting is put over what the older ones stand for, and a substitution inside a value of a setting sees only the older values of that setting. So 'path = ${path} [x]' and 'path += x' append, and 'a = ${base}' followed by 'a { .. }' overrides fields of base.",
  "all configurations, with settings given any number of times, to which the semantics assigns a value: substitutions do not need their own value, and their paths lead through objects written out (lists may not begin with vanishing elements, a known defect)",
  "Total correctness over all configurations: success and result, for every evaluation order the nesting induces.",
  ["lib/src/values/config_delayed_merge.cc: resolve_substitutions, make_replacement", "lib/src/values/config_delayed_merge_object.cc", "lib/src/values/config_reference.cc: resolve_substitutions", "lib/src/values/config_concatenation.cc: resolve_substitutions", "lib/src/resolve_source.cc: lookup_subst, replace_within_current_parent", "lib/src/resolve_context.cc: resolve", "lib/src/config.cc: resolve"])
p("A setting can be extended any number of times",
  "A list to which values are appended n times by 'a += x' or 'a = ${a} [x]' resolves to the list with all n values at its end, for every n.",
  "every number of appended values, all configurations",
  "Tests append once or twice.",
  ["lib/src/values/config_delayed_merge.cc: config_delayed_merge, make_replacement", "lib/src/config_value.cc: with_fallback, merged_with_the_unmergeable, merged_with_non_object"])

p("Comments and origins written by render are read back as comments",
  "For every resolved configuration object whose values carry arbitrary origins and comments, and for every combination of the four render options (origin comments, comments, formatted, JSON), the rendered text parses as HOCON to a value equal to the object: comments and origin notes never change the settings. Without origin and comment options the text does not depend on the origins at all.",
  "all resolved objects of representable values, all origins (descriptions, files, resources, line ranges, comments without a newline), all 16 combinations of render options, all number environments",
  "Comments are free text placed between tokens of the output; a test fixes a handful of comments and never meets one that ends the line or swallows a setting.",
  ["lib/src/values/simple_config_object.cc render", "lib/src/values/simple_config_list.cc render", "lib/src/values/config_value.cc render, indent", "lib/src/config_render_options.cc", "lib/src/values/config_delayed_merge.cc render", "lib/src/values/simple_config_origin.cc description, with_comments"])

p("A text with substitutions is read and resolved as it is written",
  "Parsing a HOCON text with substitutions, '+=' and values of several pieces yields the settings it writes: '${p}' and '${?p}' stay substitutions of the written path, neighbouring words, lists and objects are put together except across a substitution, 'p += v' at the top stands for 'p = ${?p} [v]', a dotted key is a nested object, and a setting given several times keeps its values, the newest first, as soon as a substitution is involved. Parsing and resolve() together return the values these settings describe.",
  "all texts of a grammar over characters (comments, blanks, commas or newlines, quoted and dotted keys, sections, all kinds of pieces), all includers, all number environments",
  "All texts at once: tokenizer, document parser, path parser, concatenation, merging and resolution have to agree on every spelling and nesting.",
  ["lib/src/tokenizer.cc: pull_substitution", "lib/src/config_document_parser.cc: consolidate_values, parse_object", "lib/src/config_parser.cc: parse_object, parse_concatenation", "lib/src/values/config_concatenation.cc: consolidate, join", "lib/src/config_value.cc: with_fallback", "lib/src/nodes/config_node_simple_value.cc: get_value", "lib/src/config.cc: resolve"])
p("is_resolved() says whether a substitution is left",
  "For every value of every configuration, is_resolved() is true if and only if no substitution is left anywhere in it, and no object has two fields of the same name. This holds after parsing (texts and files, with includes), with_fallback, at_key, and resolve() or resolve_with() with any options, in particular when unresolved substitutions are allowed.",
  "all texts, files and included files, all pairs of merged configurations, all resolve options",
  "An invariant of the whole API: the status is stored in each object and computed separately by each operation.",
  ["lib/src/values/simple_config_object.cc: resolve_status_from_value, with_value", "lib/src/config_value.cc: resolve_status_from_values, with_fallback", "lib/src/config.cc: is_resolved", "lib/src/values/simple_config_list.cc", "lib/src/config_parser.cc"])

p("A configuration that is not resolved can be rendered and read again",
  "Rendering a parsed configuration that still has substitutions, with any combination of the formatted and JSON options and without comments, gives a text that parses as HOCON to the same configuration: the same settings, the same substitutions with the same paths and optional marks, the pieces of a value in the same order, and settings given several times with the same values, the newest still deciding. It therefore resolves to the same values.",
  "all configurations with substitutions, concatenations and repeated settings, all documents of the grammar of C68, all render options without comments, all includers, all number environments",
  "Every nesting of substitutions, pieces and repeated values has its own notation in the text; tests render resolved configurations.",
  ["lib/src/values/config_reference.cc: render", "lib/src/values/config_concatenation.cc: render", "lib/src/values/config_delayed_merge.cc: render", "lib/src/values/config_delayed_merge_object.cc: render", "lib/src/values/simple_config_object.cc: render", "lib/src/substitution_expression.cc: to_string", "lib/src/path.cc: render"])

p("Where a text comes from and its comments never influence the settings",
  "Parsing a text gives the same outcome and the same values, and a lookup finds the same values, whatever the description, line numbers, file name and comments recorded for the source and for included values are.",
  "all texts in both syntaxes, all origins of the source, all includers, all paths, all values",
  "Origins are merged, copied and rewritten in every step of parsing, merging and concatenation; that none of these steps lets one influence a value is a statement about all of them together.",
  ["lib/src/config_parser.cc", "lib/src/values/simple_config_origin.cc: merge_origins, with_comments", "lib/src/config_value.cc: with_fallback, with_origin", "lib/src/values/simple_config_object.cc: merged_with_object", "lib/src/values/config_concatenation.cc: join", "lib/src/values/config_object.cc: peek_path"])
p("Every setting knows its line and its comments",
  "After parsing a document laid out in lines, origin()->line_number() of every setting is the line on which it stands, and origin()->comments() are exactly the comments on the lines directly above it, without a blank line in between, followed by the comment behind it on the same line. A comment behind an opening brace counts as the first line of the section. No comment is attached to any other setting.",
  "all documents of blank lines, comment lines, settings and nested sections of any number and depth, all spellings of keys and values, both comment signs, with and without commas, all sources",
  "Which comment belongs to a setting depends on everything between the two; tests look at a few arrangements.",
  ["lib/src/config_parser.cc: parse_object, parse_value", "lib/src/config_document_parser.cc: parse_object, check_element_separator", "lib/src/values/simple_config_origin.cc: append_comments, prepend_comments, with_line_number", "lib/src/tokenizer.cc: pull_comment"])

p("Reported positions and comments always lie in the text",
  "After parsing any text in either syntax, the origin of every value, at any depth, names the source the text was read from; its line number and end line are lines of the text, in this order; and every comment it reports is a comment of the text. A JSON text yields no comments. With include statements, every comment comes from the text or from what was included. A lookup finds no other origins.",
  "all texts in both syntaxes, all sources, all includers, all values in the result",
  "Positions are computed by counting newlines in two places and by merging ranges whenever objects, lists or strings are put together; a test compares a few numbers.",
  ["lib/src/config_parser.cc", "lib/src/tokenizer.cc: pull_next_token, pull_comment, append_triple_quoted_string", "lib/src/values/simple_config_origin.cc: merge_origins, merge_two, merge_three, with_line_number", "lib/src/values/config_object.cc: merge_origins, peek_path", "lib/src/values/config_concatenation.cc: join, concatenate", "lib/src/config_value.cc: with_fallback"])

p("Setting a value changes that value and nothing else in the document",
  "Setting an existing scalar of a document laid out in lines with config_document::with_value_text replaces the characters of the old value and no others. Parsing the new document gives the new value at the path, and every other setting keeps its value; all settings keep their line numbers and comments.",
  "all documents of blank lines, comment lines, settings and nested sections of any number and depth, all settings in them, all scalar values and spellings, all sources",
  "It connects the text edit with what the edited text means: any change to blanks, comments or newlines could move a comment or a line number of another setting.",
  ["lib/src/simple_config_document.cc: with_value_text", "lib/src/nodes/config_node_object.cc: change_value_on_path, set_value_on_path", "lib/src/config_document_parser.cc: parse_value", "lib/src/config_parser.cc: parse_object"])

p("Removing a setting removes that setting and nothing else",
  "Removing a setting or a section from a document laid out in lines with config_document::without_path takes one piece out of the text, from its key to the end of its value and the comma behind it. Parsing the new document gives nothing at or below the path, and every other setting keeps its value, its comments and, up to the lines taken away, its line number.",
  "all documents of blank lines, comment lines, settings and nested sections of any number and depth, all settings and sections in them, all sources",
  "What the removal leaves behind (comments, commas, blank lines) is read together with the lines around it; tests compare a few texts and do not look at comments.",
  ["lib/src/simple_config_document.cc: without_path", "lib/src/nodes/config_node_root.cc: set_value", "lib/src/nodes/config_node_object.cc: change_value_on_path", "lib/src/config_parser.cc: parse_object"])

p("Adding a setting adds that setting and nothing else",
  "Setting a path that has no value, in an existing section or at the top level of a document laid out in lines, with config_document::with_value_text adds one line with the key and the value, indented, and leaves every other character. Parsing the new document gives the new value at the path; every other setting keeps its value and its comments and is found on its line, or one line further down when it stands below the new one; nothing else appears.",
  "all documents of blank lines, comment lines, settings and nested sections of any number and depth, all sections in them, all new keys, all scalar values and spellings, all sources",
  "Where the line goes, how it is indented and what separates it from its neighbours is computed from the tokens before and behind the place; a comment, a comma or a missing newline there can swallow or split it, and tests try a few layouts.",
  ["lib/src/simple_config_document.cc: with_value_text", "lib/src/nodes/config_node_object.cc: set_value_on_path, add_value_on_path, indentation", "lib/src/config_parser.cc: parse_object"])

p("Setting a value in a JSON document changes that value and nothing else",
  "In a JSON document of any layout, setting a path that leads through objects to an existing value with config_document::with_value_text to the text of any JSON value succeeds, in JSON syntax and in HOCON syntax. Exactly the characters of the old value are replaced; in their place stands the given text, with whitespace put behind some of its newlines. Parsing the new document gives the tree of the old one with the given value at the path: same keys, same order, same other values.",
  "all JSON texts with an object at the root, of any layout and depth, all existing values at paths through objects, all JSON values and spellings of the new value including multi-line objects and arrays, both syntaxes",
  "The new value is re-indented token by token with whitespace found in front of the setting, and the search for the setting runs backwards through sibling keys and removes commas in JSON mode; whether strings with newlines escapes, commas and neighbours survive for every layout cannot be sampled.",
  ["lib/src/simple_config_document.cc: with_value_text", "lib/src/config_document_parser.cc: parse_single_value", "lib/src/nodes/config_node_object.cc: change_value_on_path", "lib/src/nodes/config_node_complex_value.cc: indent_text"])

p("Adding a value to a JSON document adds that value and nothing else",
  "In a JSON document of any layout, setting a path that has no value yet with config_document::with_value_text to the text of any JSON value succeeds. One member, and a comma if other members stand before it, is put into the text; every other character stays. The new document is JSON again: parsing it gives the tree of the old one with the given value added as the last member of the innermost object the path leads to, below new objects for the rest of the path.",
  "all JSON texts with an object at the root, of any layout and depth, all paths without a value, with quoted or unquoted elements, all JSON values and spellings of the new value",
  "Where the member goes, which comma it needs, how it is indented and how the elements of the path are quoted is computed from the tokens around the place; a wrong comma or quote makes the file unreadable, and tests try a few layouts.",
  ["lib/src/simple_config_document.cc: with_value_text", "lib/src/nodes/config_node_object.cc: set_value_on_path, add_value_on_path, indentation", "lib/src/path_parser.cc: parse_path_node_expression, split_token_on_period, path_node_from_tokens", "lib/src/nodes/config_node_path.cc: first, sub_path"])

p("A value object set in a document is read back from it",
  "Setting a path of a document with config_document::with_value to a resolved value writes a text from which an equal value is read: in a JSON document of any layout, whether the path has a value already or not, exactly the old value is replaced or one member added, the new document is JSON again, and parsing it gives the old tree with an equal value at the path; in a document laid out in lines a scalar replaces a scalar and every setting keeps its line and comments. A null pointer is refused.",
  "all JSON documents and all documents made of lines, all paths, all resolved values over the supported alphabet of any size and depth, all number environments",
  "It joins rendering, trimming, parsing, re-indenting and parsing again for every value and every layout; tests set a few numbers and short lists.",
  ["lib/src/simple_config_document.cc: with_value, with_value_text", "lib/src/config_value.cc: render", "lib/src/values/simple_config_object.cc: render", "lib/src/values/simple_config_list.cc: render", "lib/src/nodes/config_node_object.cc: set_value_on_path"])

p("Removing a value from a JSON document removes that value and nothing else",
  "In a JSON document of any layout, removing a path that leads through objects to an existing value with config_document::without_path succeeds. The member leaves the text together with one comma beside it (behind it, or before it if it is the last member); every other character stays, except whitespace behind the removed comma. The new document is JSON again: parsing it gives the tree of the old one without that member, the others in their order.",
  "all JSON texts with an object at the root, of any layout and depth, all existing values at paths through objects, all spellings of the path",
  "Which comma goes is decided by a backward walk over the nodes that looks one or two nodes ahead and keeps a flag for settings seen before; a comma too many or too few makes the file unreadable, and tests try a few layouts.",
  ["lib/src/simple_config_document.cc: without_path", "lib/src/nodes/config_node_root.cc: set_value", "lib/src/nodes/config_node_object.cc: change_value_on_path"])

p("Removing paths from a HOCON document leaves a text that parses to the edited document",
  "After any number of config_document::without_path calls on a parsed HOCON document of any layout, the rendered text parses, and parsing it gives the document that rendered it: the same nodes in the same order (line numbers apart), the same answers of has_path. In particular the removed path is gone from the file and every setting that is neither above nor below it is still there. This holds for keys set several times, dotted keys, sections in sections, comments, includes, and commas or line breaks as separators.",
  "all HOCON texts in which no line begins with a comma, all sequences of removals, all paths, all number environments",
  "Taking a field out joins what stood before it with what stands behind it: two texts that were separate tokens may become one, and a separator may be left without a field. Tests look at the text of a few edits and never read it back.",
  ["lib/src/simple_config_document.cc: without_path, render", "lib/src/nodes/config_node_root.cc: set_value", "lib/src/nodes/config_node_object.cc: change_value_on_path", "lib/src/config_document_parser.cc: parse_object, check_element_separator", "lib/src/tokenizer.cc: token_iterator"])

p("The options for boost::program_options are the settings of the config",
  "parse_hocon, parse_string and parse_file of program_options.hpp return exactly one option for each setting of the resolved config that is neither an object nor null nor an empty list: the key is its path, the values are its text or, for a list, the texts of the elements in order. With allow_unregistered, settings that are not registered are left out and nothing else is. No key is given twice with different values, and the value of a scalar option is what get_string returns. A list that contains a list or an object makes the call throw, unless it is left out.",
  "all resolved configs, all HOCON texts that parse and resolve, all sets of registered options",
  "The walk depends on the shape of the whole config and on which keys are registered; the tests read three small files.",
  ["lib/inc/hocon/program_options.hpp: parse_hocon, parse_string, parse_file", "lib/src/config.cc: entry_set"])

p("Durations with a fraction are converted exactly",
  "If a setting is a number with a fraction and a unit of time, get_duration(path, unit) is the amount in the unit asked for, cut towards zero, for all pairs of units. A text whose number cannot be read is refused with bad_value_exception.",
  "all fractions a/b, all units and spellings, all units asked for, all arithmetic in which the operations on the amount do not round",
  "The conversion has its own factors for each of seven units and combines quotient, remainder and two casts; tests try a handful of amounts.",
  ["lib/src/config.cc: convert(double), parse_duration, get_duration", "lib/src/config.cc: get_units"])

p("The functional list behaves like a list",
  "The operations of List<T> in functional_list.hpp do what their names say: take(n) is the first n elements, insertedAt puts the element at the position and keeps the order of the others, removed takes out all occurrences and removed1 the first one, member and all decide membership and a condition for all elements, set_diff and set_union are difference and union and keep lists without duplicates free of them, concat, fmap, filter, foldr, foldl, concatAll and reversed are the usual functions, iterateN(f, x, n) is x, f(x), f(f(x)), ...",
  "all lists, elements, positions, predicates and functions, all element types with an equality",
  "A template for all types and functions, with recursion over lists of any length; there are no tests for it in the project.",
  ["lib/inc/hocon/functional_list.hpp: List, concat, fmap, filter, foldr, foldl, set_diff, set_union, concatAll, iterateN, reversed"])

p("Includers of the application are asked for every include statement, with the default includer as a fallback",
  "If the parse options have an includer of the application, every include statement of the parsed text and of the files included from it, at any depth, is answered by it; its with_fallback has been given the default includer, so that settings of the application go over those of the files. include file(...) statements go to it if its class implements config_includer_file and to the default includer otherwise. a.with_fallback(b) answers every name with the settings of a over those of b; an includer cannot be its own fallback. Without an includer in the options the default includer is used.",
  "all includers of the application that keep to the documented contract, all chains of fallbacks, all names and file systems, all depths of nesting",
  "The includer is combined, wrapped and passed on through options and include contexts for each file anew; tests use no includer of their own.",
  ["lib/src/simple_includer.cc: with_fallback, include, include_file, make_full, proxy", "lib/src/parseable.cc: fixup_options, post_construct, parse", "lib/src/config_parse_options.cc: append_includer", "lib/src/simple_include_context.cc: parse_options", "lib/src/config.cc: parse_string, parse_file_any_syntax"])

p("The origin of every value tells where it was written",
  "The origin of every value of a config read from a file or a string names the source in which the value was written (the file, or the description given in the parse options) and lines of that source; an origin that merges several sources names them all and has no line. Comments of an origin are comments of the texts read. The description given in the options has no influence on the values.",
  "all texts, file systems, names, parse options, nestings of includes",
  "Origins are merged in twos and threes for every section, list and concatenation that has several parts, and every included file is read with options of its own; tests compare a few descriptions and line numbers.",
  ["lib/src/parseable.cc: post_construct, parse_value, create_origin", "lib/src/simple_includer.cc: from_basename, clear_for_include", "lib/src/simple_config_origin.cc: merge_two, merge_three, merge_origins", "lib/src/config_parser.cc: parse_include, parse_object"])

p("An earlier text is a fallback of a later one",
  "Writing several HOCON texts one after the other into one document gives the same configuration as parsing each of them and calling with_fallback on the last with the earlier ones, the nearest first: the same keys with the same values.",
  "all sequences of HOCON texts without enclosing braces, substitutions and includes (the grammar of C62), all number environments",
  "The parser merges field by field while reading, with_fallback merges whole trees from the other end; that both agree for repeated, dotted and nested keys and values that hide objects is a statement about all pairs of texts.",
  ["lib/src/config_parser.cc: parse_object, create_value_under_path", "lib/src/values/simple_config_object.cc: merged_with_object", "lib/src/values/config_value.cc: with_fallback", "lib/src/config.cc: with_fallback, parse_string"])

p("Comments survive writing a config out and reading it back",
  "A config of settings and sections, rendered on several lines in HOCON style and parsed again, has the same settings, and every setting has exactly the comments it was rendered with, in order: no comment is lost, moved to another setting or taken for content. Rendered with comments and without origins, a comment changes at most by a blank put before it, and writing and reading again changes nothing more. Text saying where a value came from is not taken for a comment of the user.",
  "all trees of sections and scalars, all comments without a newline, all origins, render options and keys",
  "Which comment belongs to which setting is decided anew by the parser from blank lines, line ends and braces in the rendered text, after the keys have been sorted; tests compare rendered texts, not the comments read back.",
  ["lib/src/values/simple_config_object.cc: render", "lib/src/values/config_value.cc: render", "lib/src/config_parser.cc: parse_object", "lib/src/simple_config_origin.cc: prepend_comments, append_comments", "lib/inc/hocon/config_render_options.hpp: config_render_options"])

p("An optional substitution without a value is left out of a list",
  "When a config is resolved, a list keeps its plain elements and the values of its substitutions in the order written, and every ${?path} without a setting and without an environment variable is left out of it, at whatever position; it neither stays in the list nor makes resolve() fail.",
  "all configs, all paths of lists, all lists of plain values and substitutions of any length, with and without environment variables",
  "The new list is built lazily, depending on which elements came first; a list of two optional substitutions behaves differently from a list of one, and tests have a few literal lists.",
  ["lib/src/values/simple_config_list.cc: resolve_substitutions, modify_may_throw", "lib/src/values/config_reference.cc: resolve_substitutions", "lib/src/config.cc: resolve"])

p("The origin of a section names the sources of all its settings",
  "When configurations are layered with with_fallback, the origin of every section of the result names the description of every source from which a setting in the section comes, at any depth and through any number of layers, the origin of a setting with several values names the sources of them all, and no source is named that gave nothing.",
  "all annotated configurations, resolved or not, all numbers of layers, all texts and descriptions",
  "Origins are merged in twos and threes by similarity, empty objects are left out, a section that the fallback does not change keeps its origin, and descriptions of merges are taken apart and joined again; tests look at one or two descriptions.",
  ["lib/src/values/simple_config_object.cc: merged_with_object", "lib/src/values/config_object.cc: merge_origins", "lib/src/simple_config_origin.cc: merge_two, merge_three, merge_origins", "lib/src/values/config_value.cc: with_fallback, merged_with_the_unmergeable, merged_with_non_object"])

p("Resolving makes up no origins and does not depend on them",
  "resolve() and resolve_with() give the same values and fail in the same cases whatever origins the values carry, and every origin of the result has lines and comments of a source of the configurations, or no line and the names of such sources; a value taken from the environment says from which variable it is.",
  "all configurations with any substitutions, concatenations and delayed merges, all origins, resolve options and environments",
  "Resolving rebuilds objects, lists and merges and looks into partially resolved copies of the root; that no step takes an origin from elsewhere or lets it decide is a statement about all runs.",
  ["lib/src/resolve_context.cc: resolve", "lib/src/resolve_source.cc: lookup_subst, replace_within_current_parent", "lib/src/values/config_reference.cc: resolve_substitutions", "lib/src/values/config_delayed_merge.cc: resolve_substitutions", "lib/src/values/simple_config_object.cc: resolve_substitutions, replace_child", "lib/src/config.cc: resolve_with, env_variables_as_config_object"])

p("A substituted setting reports the place of the setting it stands for",
  "After resolve() a setting written as ${path}, where path names a setting without substitutions or a setting that is such a substitution itself and so on, is exactly the setting at the end: the same value with the same file, lines and comments. The same holds for resolve_with() with the settings of the given source. Settings without substitutions stay what they are with their origins, and sections and lists keep their origins whatever is substituted inside.",
  "all configurations the parser builds, all settings in sections of any depth, all chains of substitutions, all other settings",
  "The value is looked up in a copy of the configuration that is being resolved along the path, while other settings are resolved before and after; tests check the value of a few substitutions and never its origin.",
  ["lib/src/values/config_reference.cc: resolve_substitutions", "lib/src/resolve_source.cc: lookup_subst, find_in_object", "lib/src/values/simple_config_object.cc: resolve_substitutions, modify_may_throw", "lib/src/config.cc: resolve, resolve_with"])

p("Substitutions see the settings of all layers",
  "When configurations are layered with with_fallback and then resolved, a substitution in any layer stands for what the layers together set at its path: a layer above changes what the substitutions below it give, and a layer below gives values to the substitutions above it, directly or through other substitutions. The setting gets the value with the file, lines and comments it has in its own layer.",
  "all numbers of layers, all configurations the parser builds, all settings in sections of any depth, all chains of substitutions through any of the layers",
  "with_fallback rebuilds the objects along every path and leaves others untouched, and resolve looks the path up in the result; tests layer two configurations with one substitution.",
  ["lib/src/config.cc: with_fallback, resolve", "lib/src/values/config_value.cc: with_fallback", "lib/src/values/simple_config_object.cc: merged_with_object, resolve_substitutions", "lib/src/values/config_reference.cc: resolve_substitutions", "lib/src/resolve_source.cc: lookup_subst"])

p("Allowing unresolved substitutions changes only what cannot be resolved",
  "With set_allow_unresolved(true), resolve() and resolve_with() give exactly what they give without it whenever that succeeds, so resolving in two steps, first with and then without the permission, is resolving once. They never throw unresolved_substitution_exception. Every substitution that is left is one that was written in the configuration or the source; a required substitution for something that nobody sets is left as it was, with its origin, and an optional one is gone.",
  "all configurations with any substitutions, concatenations and delayed merges, all sources, environments and both settings of use_environment; what is left: all settings in sections of any depth",
  "The permission is consulted in the middle of resolving references, lists and concatenations, and the results flow on into lookups and merges; that no run without an error changes is a statement about pairs of runs.",
  ["lib/src/config_resolve_options.cc: set_allow_unresolved", "lib/src/values/config_reference.cc: resolve_substitutions", "lib/src/values/config_concatenation.cc: resolve_substitutions", "lib/src/values/simple_config_list.cc: modify_may_throw", "lib/src/resolve_context.cc: resolve", "lib/src/config.cc: resolve, resolve_with"])

p("Repeating, overriding and reordering edits of a document",
  "Removing a path from a document a second time changes nothing, and several removals may be made in any order. Setting a path and then setting it to another value gives the document, and the text, that the second edit alone would have given; setting it and then removing it gives what removing it at once gives. Edits at two paths neither of which lies inside the other one may be made in either order.",
  "every document parsed from any CONF or JSON text and edited any number of times before; every two paths; all value texts (without line breaks for the values written); settings given once, several times, in nested braces or by dotted keys",
  "A test compares two sequences of edits on one text. The laws depend on how duplicates are removed from the end, on separators swallowed with a removed setting, on commas that become trailing ones in JSON and on where a new setting is put, for every shape of document.",
  ["lib/inc/hocon/parser/config_document.hpp: with_value_text, without_path", "lib/src/nodes/config_node_object.cc: change_value_on_path, set_value_on_path, add_value_on_path, remove_value_on_path", "lib/src/nodes/config_node_root.cc: set_value", "lib/src/simple_config_document.cc: with_value_text, without_path"])

p("What an edit of a document changes in the config read from its text",
  "Removing a path from a HOCON document and reading the new text as a config gives the config of the old text without that path: at every path that is neither at or below nor above the removed one there is exactly the value that was there before, or nothing if there was nothing, and at the removed path there is nothing. Replacing the value of a path likewise leaves what is read at all other paths as it was, however often, in whichever sections and by whichever dotted keys the path was set. At the replaced path, and below it, the new value is read and nothing of the old ones.",
  "every HOCON text without substitutions and += that can be read as a config, with includes of files without substitutions, nested and repeated sections, dotted keys, lists, concatenations, comments and commas; every path; every one-line value text",
  "A setting may be given several times, and the config shows the merge of all of them; taking some of them out must not uncover or hide another one. A test looks at one text; that the merge of what is left is the old merge off the path is a statement about all sequences of fields.",
  ["lib/inc/hocon/parser/config_document.hpp: with_value_text, without_path, render", "lib/inc/hocon/config.hpp: parse_string, has_path", "lib/src/nodes/config_node_object.cc: change_value_on_path, remove_value_on_path", "lib/src/config_parser.cc: parse_object, create_value_under_path", "lib/src/values/simple_config_object.cc: merged_with_object"])

p("Moving settings to an included file",
  "Taking a stretch of settings out of a HOCON file, putting them in a file of their own in the same directory and including that file where they were (include \"x.conf\", include file(\"x.conf\") or include \"x\") does not change the config: the new file can be read exactly if the old one can, and every path has the same value, also where the settings around the include set the same keys or sections.",
  "every HOCON text without substitutions and +=, with nested and repeated sections, dotted keys, lists, concatenations, comments and further includes of files without substitutions around the settings that are moved; every stretch of settings of its root object or of a section; all file systems and directories",
  "Included settings are stored by another loop than written ones, after they have been merged with each other, and include file resolves them first. That both ways of storing give the same merge is an associativity law over all sequences of settings; a test compares one pair of files.",
  ["lib/src/config_parser.cc: parse_include, parse_object", "lib/src/simple_includer.cc: include, include_file, from_basename, include_without_fallback", "lib/src/parseable.cc: parse, raw_parse_value, relative_to", "lib/src/values/simple_config_object.cc: merged_with_object"])

p("A merged origin names every source once",
  "When the origins of three neighbouring values are merged and two neighbours come from the same source, these two are merged with each other first, so that the merged description names each of the two sources once.",
  "all origins with any descriptions, lines, types, resources and comments, two of them neighbours from the same source, before or after the third",
  "Which two of three origins are merged first is decided by counting what they have in common; an accidental agreement of line numbers in different files counts as much as the file itself. A test uses a few descriptions and lines.",
  ["lib/src/simple_config_origin.cc: merge_origins, merge_three, similarity, merge_two"])

p("A value of several lines set in a document is indented like its setting",
  "Setting a path of a document to a value text of several lines (an object, a list or a concatenation) writes the value with the whitespace before the setting behind each of its line breaks, so that it stands as deep as the setting, and leaves every other token of the document, comments and spacing included, as it was.",
  "every HOCON or JSON document parsed from any text and edited any number of times before, every path set once, any whitespace before its setting, all value texts of several lines with nested objects, lists, comments and concatenations",
  "A test looks at one layout. The whitespace has to be put behind every line break at every depth of the value and nowhere else, and where the setting stands among the others decides whether it is done at all.",
  ["lib/inc/hocon/parser/config_document.hpp: with_value_text", "lib/src/nodes/config_node_object.cc: change_value_on_path", "lib/src/nodes/config_node_complex_value.cc: indent_text"])

open("/verif/properties.jsonl","w").write("".join(json.dumps(x)+"\n" for x in P))
print(len(P))
