{
 "C01": {
  "status": "partial",
  "note": "Proved for all non-empty paths over the stated alphabet, under two hypotheses: text over eE+-. alone is not a double, and the rendering contains no numeral outside the int64 range (for such numerals re-reading is undefined behaviour: C01_large_numeral_ub)."
 },
 "C02": {
  "status": "partial",
  "note": "Proved for all texts without a newline; with a surrounding newline the parsers disagree (C02_newline_disagrees). Assumes only that text over the characters eE+-. alone is not accepted by lexical_cast<double>."
 },
 "C03": {
  "status": "proved",
  "note": "List laws for path.cc and path_builder.cc."
 },
 "C04": {
  "status": "proved",
  "note": "For every expression; the empty element implies an empty quoted-string token in the tokenization of the expression."
 },
 "C05": {
  "status": "proved",
  "note": "For every renderable string and every following input; C05_non_ascii_rejected shows that other characters are rejected by the tokenizer, so the alphabet restriction is needed."
 },
 "C06": {
  "status": "partial",
  "note": "Proved for inputs without a blank directly before '}' of a substitution and without NUL in a \\u escape; both exceptions are shown to lose text. C06_no_invention is unconditional: the token text is always a subsequence of the input."
 },
 "C07": {
  "status": "proved",
  "note": "Fuel adequacy plus START/END shape, all inputs."
 },
 "C08": {
  "status": "partial",
  "note": "Proved except for whitespace tokens directly before a newline (line off by one) and for newlines inside a \\u escape (not counted); both are witnessed."
 },
 "C09": {
  "status": "proved",
  "note": "Simulation between the runs with and without the blanks."
 },
 "C10": {
  "status": "partial",
  "note": "Proved for inputs without NUL, without a blank before '}' when '$' occurs, and without url()/file()/classpath() includes; sublist property for all inputs; the lost ')' is a proved counterexample."
 },
 "C11": {
  "status": "proved",
  "note": "Exact characterisation (iff) by the JSON token grammar, plus absence of the HOCON extensions. JSON mode still takes triple-quoted strings (C11_triple_quotes_accepted)."
 },
 "C12": {
  "status": "proved",
  "note": "Every document reachable by parsing and editing, every path text (for JSON documents one that has_path accepts: C13_json_comment_path). Assumes only that text over eE+-. alone is not a double. C12_total: removal succeeds whenever the document has an object root and the path text parses."
 },
 "C13": {
  "status": "proved",
  "note": "Same hypotheses as C12. C13_json_comment_path: in JSON documents with_value_text accepts path texts containing // on which has_path throws."
 },
 "C14": {
  "status": "partial",
  "note": "Proved for every document in which the path occurs once: the text before and after is unchanged, and the new value text is inserted verbatim if it has no line break, NUL, $ or parenthesis (multi-line values are re-indented, the others meet the text losses of C06 and C10)."
 },
 "C15": {
  "status": "proved",
  "note": "Every document reachable by parsing and editing, every two path expressions neither of which is a prefix of the other. Assumes only that text over eE+-. alone is not a double."
 },
 "C16": {
  "status": "proved",
  "note": "For all resolved well-formed trees (statuses right, keys distinct) and all paths: what is visible at every path of the merge; C16_total: the merge never fails."
 },
 "C17": {
  "status": "proved",
  "note": "For all resolved well-formed values, exact equality including the flags that govern later merges. For unresolved values it fails (C17_unresolved_throws, C17_unresolved_nested), which the property excludes."
 },
 "C18": {
  "status": "proved",
  "note": "Exact equality for all resolved well-formed configs."
 },
 "C19": {
  "status": "proved",
  "note": "For all simple objects, resolved or not, where the receiver still accepts fallbacks; an object that was already merged over a non-object keeps its keys (C19_closed)."
 },
 "C20": {
  "status": "proved",
  "note": "Chains of any length with arbitrary (also unresolved) values after the non-object, and the same inside nested objects."
 },
 "C21": {
  "status": "proved",
  "note": "For every list of children of an object without substitutions, '+=' and includes, the value seen at a path is the one given by the last assignments (specification Through over the written assignments); in JSON mode a repeated key throws."
 },
 "C22": {
  "status": "proved",
  "note": "A dotted key gives the same object as the nested braces, and contributes the same layers."
 },
 "C23": {
  "status": "proved",
  "note": "JSON rendering, formatted or not, comments off; read back in both syntaxes. C23_empty_key_lost and C23_control_character show that the restrictions on keys and strings are needed. Assumes HexOk (sscanf) and for parsed values NoNaN."
 },
 "C24": {
  "status": "proved",
  "note": "Resolving a resolved config returns the same tree for every source, environment and options."
 },
 "C25": {
  "status": "partial",
  "note": "Proved for all trees whose stored resolve status is right, in particular everything parsed; with_value breaks the status and the claim (C25_stale_status)."
 },
 "C26": {
  "status": "partial",
  "note": "Proved for configs without delayed merges whose optional substitutions have calm paths, for all reference graphs, and (C26_merged_partial) for configs with repeated settings to which the semantics of C65 gives a value. Missing: delayed merges in configs outside that semantics (substitutions whose paths lead through other substitutions)."
 },
 "C27": {
  "status": "partial",
  "note": "The code violates the claim: C27_diverges gives two configs on which resolve never ends. Termination is proved for all objects, cyclic or not and with delayed merges, when optional substitutions have one-key paths and no environment variable plays a part; required cycles never resolve normally (configs as for C26); for all inputs the internal not-possible error never leaves resolve (C27_error_class_partial)."
 },
 "C28": {
  "status": "partial",
  "note": "Proved for all configs, with any delayed merges and cycles, when the path leads through objects to a missing key or into a scalar or list (C28_missing_path_partial), and for every absent path when the config has no delayed merges (conditions as for C26). Missing: paths through other substitutions in configs with delayed merges."
 },
 "C29": {
  "status": "proved",
  "note": "On resolved, well-formed configs has_path, has_path_or_null, get_value and get_is_null are characterised by the value at the path, and agree. C29_unresolved shows 'resolved' is needed."
 },
 "C30": {
  "status": "proved",
  "note": "Entries are exactly the non-null non-object values with their rendered paths; rendering is injective; get_value on an entry's expression returns the entry when the expression is read back (C01)."
 },
 "C31": {
  "status": "partial",
  "note": "Integers stored as int, long or decimal text: exact, range-checked. Violated for numbers stored as double: get_int drops the fraction (C31_fraction_dropped, C31_witness) and is undefined out of range (C31_out_of_range_undefined)."
 },
 "C32": {
  "status": "proved",
  "note": "Exact characterisation of get_string, get_bool, get_object, get_list on resolved configs: success iff the value converts as documented, otherwise an exception, never undefined."
 },
 "C33": {
  "status": "partial",
  "note": "Holds when the first key of the path is new. Violated otherwise: an existing key is never replaced, and if the first key is an object the value goes to the wrong object (witness C33_not_retrievable); the resolve status is not updated (C33_status_stale)."
 },
 "C34": {
  "status": "partial",
  "note": "The path is removed for every config and path; everything inside the object that held it is kept. Violated: siblings of the first key are lost for longer paths, even if the path does not exist (C34_siblings_lost, C34_witness)."
 },
 "C35": {
  "status": "partial",
  "note": "Violated: with_only_path returns the empty config or is undefined, for every config and path (C35_always_empty_or_undefined). Only the 'nothing else remains' half holds."
 },
 "C36": {
  "status": "proved",
  "note": "For all values and paths."
 },
 "C37": {
  "status": "partial",
  "note": "Structurally equal values compare equal both ways; the converse holds for values whose objects have at most one field. Violated in general: only the last field visited counts, == is not symmetric and can throw std::out_of_range (C37_unequal_equal); undefined for doubles out of range."
 },
 "C38": {
  "status": "partial",
  "note": "Exact truncated quotient proved for all 64-bit amounts in all units unless the result overflows (proved: undefined behaviour instead of an exception) or the amount is negative and smaller than a second or the requested unit (proved: refused)."
 },
 "C39": {
  "status": "proved",
  "note": "Accepted unit words are exactly the documented spellings; any spacing; other words are refused."
 },
 "C40": {
  "status": "proved",
  "note": "Round trip for every tree with distinct map keys; the result is resolved; every resolved value unwraps."
 },
 "C41": {
  "status": "partial",
  "note": "Scalars, lists and objects join as specified; the text-after-list case and the empty string case violate the statement (C41_text_after_list_dropped, C41_empty_throws), so the scalar and mixture theorems are partial."
 },
 "C42": {
  "status": "partial",
  "note": "Setters change only their own field; the document factory honours the syntax option. config::parse_string ignores its options (C42_options_ignored, C42_json_accepts_conf)."
 },
 "C43": {
  "status": "partial",
  "note": "Without a cycle of includes parsing ends, nesting bounded by the rank of the file. The depth guard never fires, so a file that includes itself is included forever (C43_cycle_diverges)."
 },
 "C44": {
  "status": "partial",
  "note": "Both files, only .json, and only .conf with missing files allowed behave as stated. Violations: C44_conf_alone_refused, C44_malformed_conf_ignored, C44_missing_accepted."
 },
 "C45": {
  "status": "proved",
  "note": "Comments of the merged origin are exactly those of the inputs. A missing (null) origin is undefined behaviour."
 },
 "C46": {
  "status": "partial",
  "note": "For a field of the outermost object '+=' is the concatenation of the optional self reference and a one-element list. For a nested field the code refers to the wrong path (C46_nested_wrong), inside a list it throws."
 },
 "C47": {
  "status": "proved",
  "note": "Unresolved merges as field values (which render as several entries) are excluded."
 },
 "C48": {
  "status": "partial",
  "note": "The code violates the full claim in three ways (each a proved witness); proved: these are the only causes of undefined behaviour of tokenizer and document parser, and parsing terminates."
 },
 "C49": {
  "status": "partial",
  "note": "without_path always terminates; with_value_text terminates for every value text without a line break; C49_set_diverges shows that it loops forever for a multi-line value in an unindented document."
 },
 "C50": {
  "status": "partial",
  "note": "The code violates this: C50_reparse_fails (doubled comma), C50_section_violated (section without separator), C50_slash_violated (slash before a comment). Proved: in any HOCON text in which no line begins with a comma, any number of removals and of replacements by one-line texts gives a document whose text parses to it, if each replaced path has a field of its own and is nowhere set without a separator on the line of the value (C50_set_reparses_partial, C50_changes_reparse_partial; C50_replace_reparses_partial and C50_edits_reparse_partial for paths set once, without the condition on commas). For JSON documents see C77, C78, C80. Missing: added paths, multi-line value texts, values on a later line than their separator."
 },
 "C51": {
  "status": "partial",
  "note": "Violated: missing_exception and wrong_type_exception never reach the caller (C51_never_missing_or_wrong_type, C51_missing_sliced); null_exception does (C51_null_partial)."
 },
 "C52": {
  "status": "partial",
  "note": "Violated: proved that a fractional spelling with a whole number of seconds is always refused. Floating-point operations are external functions."
 },
 "C53": {
  "status": "partial",
  "note": "Holds for two single-line origins; violated for three lines of one file (proved for all lines)."
 },
 "C54": {
  "status": "partial",
  "note": "Exact for elements stored with the requested type; violated: no conversions, get_config_list always throws, get_object_list throws a non-config exception."
 },
 "C55": {
  "status": "partial",
  "note": "Violated only for with_comments of an empty list, which keeps the old comments."
 },
 "C56": {
  "status": "proved",
  "note": "Proved for objects without substitutions and '+=', with any includer that returns such objects."
 },
 "C57": {
  "status": "partial",
  "note": "Holds when the include stands at the root; below a path the code does not prepend the path (C57_not_relativized)."
 },
 "C58": {
  "status": "partial",
  "note": "Holds for names with an extension; violated for names without one (C58_basename_not_relative)."
 },
 "C59": {
  "status": "proved",
  "note": "For every resolver used by include file(...) that is defined on objects and returns objects."
 },
 "C60": {
  "status": "proved",
  "note": "JText is the grammar with denotation; C60_json_accepted covers all of it in both syntaxes. C60_big_integer and C60_non_ascii show that the int64 and ASCII restrictions are needed. Assumes sscanf reads four hexadecimal digits (HexOk)."
 },
 "C61": {
  "status": "proved",
  "note": "Comments are not modelled."
 },
 "C62": {
  "status": "proved",
  "note": "for the grammar Spec.HDoc: every text is accepted and gives exactly the denoted value; C62_fields says what the denoted object shows at each path"
 },
 "C63": {
  "status": "proved",
  "note": "for objects; a list at the root that contains an object renders to a text that is refused (C63_root_list_unreadable)"
 },
 "C64": {
  "status": "proved",
  "note": "for keys that do not begin with a digit, a minus sign or a literal; values other than objects (the fields of a section are asked one by one)"
 },
 "C65": {
  "status": "partial",
  "note": "For configs to which Spec.Ev gives a value. Ev gives none to lists whose first element vanishes and whose second changes: the code throws for them, see C89_throws_violated. Three and more appended values: see C66."
 },
 "C66": {
  "status": "partial",
  "note": "The code violates the claim in general: a setting with three or more values appended to its first never resolves, whatever the other settings and options (C66_appends_violated; C66_text_violated for every text k = v with three or more lines k += x; C66_third_append_violated a witness). Proved for two appended values."
 },
 "C67": {
  "status": "partial",
  "note": "The code violates the claim: C67_newline_comment_violated gives a comment (set through with_comments) whose second line is read back as a setting. Proved for all resolved objects, all origins, all sixteen option combinations when no comment contains a newline; descriptions may contain newlines."
 },
 "C68": {
  "status": "partial",
  "note": "Proved for every text of the grammar SDoc that has a meaning (DocMeans), including the resolved values (with C65). Missing because the code refuses or misreads them: += inside an object (C46), an object over a setting with several values that has an older object (witness C68_object_over_several_violated: parsing throws)."
 },
 "C69": {
  "status": "partial",
  "note": "Proved for parse_string and parse_file_any_syntax (with the resolve of include file(..)), with_fallback, at_key, and resolve and resolve_with with all options. The code violates it for with_value (witness C69_with_value_violated)."
 },
 "C70": {
  "status": "partial",
  "note": "Proved: the text of every unresolved configuration of the supported kind (in particular every parsed document of the grammar of C68) is read back as the same tree, for all render options without comments. Refuted: a blank between two substitutions comes back as a quoted string, so the text may no longer resolve (C70_blank_violated); a stack of values inside another is rendered as a text that is refused (C70_nested_violated). Not covered: substitution paths whose text begins like a number or literal, strings outside the alphabet of C61, comments."
 },
 "C71": {
  "status": "proved",
  "note": ""
 },
 "C72": {
  "status": "partial",
  "note": "Documents made of lines with scalar values on one line, sections and keys of one element, each set once, no braces around the document. The theorem gives lines and comments in both directions. Missing: other values, dotted and repeated keys. Witnesses show where the code departs from the claim: repeated comments, dotted keys, newlines before a value, the last comment, include."
 },
 "C73": {
  "status": "partial",
  "note": "Everything except that sources whose description begins with 'merge of ' are excluded from the position theorem (the code strips the words, C73_description_violated). Includes: the comment half is proved for all includers, the position half for texts without includes; positions with includes and files are C86."
 },
 "C74": {
  "status": "partial",
  "note": "Proved for documents of lines (comments, blank lines, one-element keys with scalars on one line, nested sections) with distinct keys and for every scalar that is written on one line. Missing: dotted keys, keys set twice, values over several lines, lists, braces around the document."
 },
 "C75": {
  "status": "partial",
  "note": "Proved for documents of lines (scalars on one line, sections, single keys set once) without an enclosing brace. Violated in the code when a comment stands behind what is removed: it stays, and with the comments above it goes to the next setting (witness)."
 },
 "C76": {
  "status": "partial",
  "note": "Proved for documents of lines (scalars on one line, sections, single keys set once) without an enclosing brace, new scalars on one line, at the end of the document when it ends with a newline or in an existing section, paths of several elements without quotes. Missing: sections created on the way, empty documents, other values. Violated in the code when the document ends in a comment without a newline: the new setting becomes part of the comment (witness)."
 },
 "C77": {
  "status": "proved",
  "note": "JSON texts as in C60 (ASCII strings, integers of int64_t). Paths that have no value yet, and paths through arrays, are not covered."
 },
 "C78": {
  "status": "partial",
  "note": "Proved for JSON syntax and paths whose elements are all quoted or all unquoted words, leading through objects only. Missing: documents opened as HOCON. False for paths through other values, mixed paths and unquoted elements with blanks (violated theorems)."
 },
 "C79": {
  "status": "partial",
  "note": "Proved for JSON documents (existing paths in both syntaxes, new paths in JSON syntax) and all resolved values without comments inside, and for scalars in documents made of lines. False for values with comments in JSON documents (violated theorem)."
 },
 "C80": {
  "status": "partial",
  "note": "proved in JSON syntax for documents in which no comma begins a line; false otherwise (C80_comma_line_violated); documents opened as HOCON not covered"
 },
 "C81": {
  "status": "partial",
  "note": "proved for every HOCON text in which no line begins with a comma, any path, any number of removals; C81_comma_violated shows that the condition is needed; C81_read_back_partial (has_path after reading back) has no further condition on the path"
 },
 "C82": {
  "status": "proved",
  "note": "The order of the options and the conversion to wide characters are not modelled; which options are registered is a parameter. C82_parse_string and C82_written cover texts; parse_file is modelled and differs only in how the text is found."
 },
 "C83": {
  "status": "partial",
  "note": "Proved for arithmetic that does not round on the amount (hypothesis Unrounded). The code violates the property for whole numbers of seconds written with a fraction and for small negative amounts; these are theorems too."
 },
 "C84": {
  "status": "partial",
  "note": "removed1 is violated by the code; the theorem says exactly when it does what its name says. Everything else is proved."
 },
 "C85": {
  "status": "partial",
  "note": "Violated by parse_string and by proxies (theorems). with_fallback is proved for answers without substitutions, under the documented contract for classes of the application."
 },
 "C86": {
  "status": "partial",
  "note": "values of included files have an empty description in the code (C86_included_violated); proved: lines of the named source, of some included file under the empty description, or joined descriptions, or a variable of the environment (include file(...) resolves what it reads)."
 },
 "C87": {
  "status": "proved",
  "note": "For all sequences of texts of the grammar of C62 without enclosing braces; equality of the key/value maps (the order of a hash map is not fixed)."
 },
 "C88": {
  "status": "partial",
  "note": "Trees of sections and scalars in HOCON style on several lines (lists, empty objects, JSON style and texts on one line are missing). With origins shown the claim is false: C88_origins_violated."
 },
 "C89": {
  "status": "partial",
  "note": "Violated by the code: a list whose first element vanishes and whose second vanishes or is a substitution makes resolve() throw (C89_throws_violated for all such configs, C89_witness_violated a text; simple_config_list.cc 188-205). Proved: whenever resolve() returns, the list is the right one; and it returns whenever Spec.Ev gives the config a value, which excludes only these lists among lists of settled values."
 },
 "C90": {
  "status": "partial",
  "note": "Proved for with_fallback of all trees whose descriptions do not say 'merge of ' twice, and for layers of texts without includes. Violated by includes (C90_include_violated): the section with the include statement names its own file only; and by resolve (C90_resolve_violated): a section keeps its origin whatever is substituted inside."
 },
 "C91": {
  "status": "proved",
  "note": "resolve and resolve_with for all configurations; texts with includes by C86. Values compared by address in the code are compared without origins."
 },
 "C92": {
  "status": "partial",
  "note": "resolve and resolve_with for settings in sections, chains of substitutions of any length, texts with files; settings without substitutions, sections, lists and the root keep their origins. Missing: paths through sections that are themselves still to be merged with a substitution (delayed merges), and optional substitutions before the end of a chain."
 },
 "C93": {
  "status": "partial",
  "note": "Any number of layers, texts without includes and all trees with exact resolve status. Missing: paths that several layers set when the upper value has substitutions or is a section, non-objects of another layer on the way, and optional substitutions before the end of a chain."
 },
 "C94": {
  "status": "partial",
  "note": "Same results, two steps, no exception and nothing made up: for all trees. What stays and what goes: for settings in sections whose paths lead through objects only. Fails in lists whose first optional element vanishes (C94_optional_violated)."
 },
 "C95": {
  "status": "partial",
  "note": "Removals: proved for all documents (idempotent, any order). Setting twice: proved for second values on one line; with line breaks the code violates it (C95_multiline_violated). Setting then removing, and reordering edits with settings: proved for paths that are set themselves; for added paths the code violates it (C95_add_remove_violated) or the order decides where the new settings stand (C95_add_order)."
 },
 "C96": {
  "status": "partial",
  "note": "Proved for texts without substitutions and += in which no line begins with a comma, with includes of files that are read as objects without substitutions, for one removal or replacement and (C96_edits_partial) for any sequence of them; what is at the edited path itself for documents without includes and concatenated objects (the code violates it for those, C96_include_violated, C96_concat_violated); replaced values on one line, on paths with fields of their own. The replaced path is read as the new value if every field above it has an object as its value; otherwise as the new value or not at all, since a later setting may hide it (C96_hidden_violated)."
 },
 "C97": {
  "status": "partial",
  "note": "Proved for settings without substitutions and += that are moved from a HOCON text to a .conf file and included with the extension, by include or include file, in both directions (C97_moved_partial, C97_files_partial; C97_nested_partial with includes among the moved settings; C97_section_partial out of a section of any depth). Violated without the extension (C97_extension_violated). Missing: substitutions, sections in lists and concatenations, .json files."
 },
 "C98": {
  "status": "partial",
  "note": "Proved if the origin of the other source is not on the lines of its neighbour and no description begins with 'merge of ' (C98_neighbours_partial, both orders). Violated on the same line (C98_same_line_violated). Missing: more than three origins."
 },
 "C99": {
  "status": "partial",
  "note": "Proved for a path with one setting, in the root object or in sections, that is not the first child of its object, for values whose newlines stand between settings and elements (C99_document_partial; C99_text_partial about the texts). Violated for the first setting of a document without braces (C99_first_violated). Missing: paths set several times."
 }
}