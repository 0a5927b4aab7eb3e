{
 "claims": [
  {
   "property": "C01",
   "status": "partial",
   "theorems": [
    "Hocon.PathParser.C01_render_parse_partial",
    "Hocon.PathParser.C01_large_numeral_ub"
   ],
   "note": "Proved for all non-empty paths over the stated alphabet, under two hypotheses: text over eE+-. alone is not a double, and the rendering contains no numeral outside the int64 range (for such numerals re-reading is undefined behaviour: C01_large_numeral_ub)."
  },
  {
   "property": "C02",
   "status": "partial",
   "theorems": [
    "Hocon.PathParser.C02_fast_agrees_partial",
    "Hocon.PathParser.C02_newline_disagrees"
   ],
   "note": "Proved for all texts without a newline; with a surrounding newline the parsers disagree (C02_newline_disagrees). Assumes only that text over the characters eE+-. alone is not accepted by lexical_cast<double>."
  },
  {
   "property": "C03",
   "status": "proved",
   "theorems": [
    "Hocon.PathM.C03_prepend",
    "Hocon.PathM.C03_prepend_assoc",
    "Hocon.PathM.C03_length",
    "Hocon.PathM.C03_length_empty",
    "Hocon.PathM.C03_last",
    "Hocon.PathM.C03_parent",
    "Hocon.PathM.C03_parent_last",
    "Hocon.PathM.C03_first_remainder",
    "Hocon.PathM.C03_subPath",
    "Hocon.PathM.C03_subPath_all",
    "Hocon.PathM.C03_subPathRange",
    "Hocon.PathM.C03_subPathRange_end",
    "Hocon.PathM.C03_startsWith",
    "Hocon.PathM.C03_startsWith_empty_ub",
    "Hocon.PathM.C03_beq",
    "Hocon.PathM.C03_ofElements",
    "Hocon.PathM.C03_concatPaths",
    "Hocon.PathM.C03_builder"
   ],
   "note": "List laws for path.cc and path_builder.cc."
  },
  {
   "property": "C04",
   "status": "proved",
   "theorems": [
    "Hocon.PathParser.C04_accepted_paths"
   ],
   "note": "For every expression; the empty element implies an empty quoted-string token in the tokenization of the expression."
  },
  {
   "property": "C05",
   "status": "proved",
   "theorems": [
    "Hocon.Tokenizer.C05_render_then_token",
    "Hocon.Tokenizer.C05_render_tokenize",
    "Hocon.Tokenizer.C05_non_ascii_rejected"
   ],
   "note": "For every renderable string and every following input; C05_non_ascii_rejected shows that other characters are rejected by the tokenizer, so the alphabet restriction is needed."
  },
  {
   "property": "C06",
   "status": "partial",
   "theorems": [
    "Hocon.Tokenizer.C06_no_invention",
    "Hocon.Tokenizer.C06_tokens_cover_input_partial",
    "Hocon.Tokenizer.C06_blank_in_substitution_lost",
    "Hocon.Tokenizer.C06_nul_in_escape_lost"
   ],
   "note": "Proved for inputs without a blank directly before '}' of a substitution and without NUL in a \\u escape; both exceptions are shown to lose text. C06_no_invention is unconditional: the token text is always a subsequence of the input."
  },
  {
   "property": "C07",
   "status": "proved",
   "theorems": [
    "Hocon.Tokenizer.C07_tokenize_total"
   ],
   "note": "Fuel adequacy plus START/END shape, all inputs."
  },
  {
   "property": "C08",
   "status": "partial",
   "theorems": [
    "Hocon.Tokenizer.C08_line_numbers_partial",
    "Hocon.Tokenizer.C08_blank_before_newline_off_by_one",
    "Hocon.Tokenizer.C08_newline_in_escape_not_counted"
   ],
   "note": "Proved except for whitespace tokens directly before a newline (line off by one) and for newlines inside a \\u escape (not counted); both are witnessed."
  },
  {
   "property": "C09",
   "status": "proved",
   "theorems": [
    "Hocon.Tokenizer.C09_blanks_insignificant"
   ],
   "note": "Simulation between the runs with and without the blanks."
  },
  {
   "property": "C10",
   "status": "partial",
   "theorems": [
    "Hocon.DocParser.C10_nothing_invented",
    "Hocon.DocParser.C10_render_parse_partial",
    "Hocon.DocParser.C10_include_parenthesis_lost"
   ],
   "note": "Proved for inputs without NUL, without a blank before '}' when '$' occurs, and without url()/file()/classpath() includes; sublist property for all inputs; the lost ')' is a proved counterexample."
  },
  {
   "property": "C11",
   "status": "proved",
   "theorems": [
    "Hocon.DocParser.C11_json_mode_exact",
    "Hocon.DocParser.C11_no_extensions",
    "Hocon.DocParser.C11_triple_quotes_accepted"
   ],
   "note": "Exact characterisation (iff) by the JSON token grammar, plus absence of the HOCON extensions. JSON mode still takes triple-quoted strings (C11_triple_quotes_accepted)."
  },
  {
   "property": "C12",
   "status": "proved",
   "theorems": [
    "Hocon.DocEdit.C12_removed",
    "Hocon.DocEdit.C12_absent_unchanged",
    "Hocon.DocEdit.C12_total"
   ],
   "note": "Every document reachable by parsing and editing, every path text (for JSON documents one that has_path accepts: C13_json_comment_path). Assumes only that text over eE+-. alone is not a double. C12_total: removal succeeds whenever the document has an object root and the path text parses."
  },
  {
   "property": "C13",
   "status": "proved",
   "theorems": [
    "Hocon.DocEdit.C13_set_then_has",
    "Hocon.DocEdit.C13_json_comment_path"
   ],
   "note": "Same hypotheses as C12. C13_json_comment_path: in JSON documents with_value_text accepts path texts containing // on which has_path throws."
  },
  {
   "property": "C14",
   "status": "partial",
   "theorems": [
    "Hocon.DocEdit.C14_replace_only_value"
   ],
   "note": "Proved for every document in which the path occurs once: the text before and after is unchanged, and the new value text is inserted verbatim if it has no line break, NUL, $ or parenthesis (multi-line values are re-indented, the others meet the text losses of C06 and C10)."
  },
  {
   "property": "C15",
   "status": "proved",
   "theorems": [
    "Hocon.DocEdit.C15_remove_frame",
    "Hocon.DocEdit.C15_set_frame"
   ],
   "note": "Every document reachable by parsing and editing, every two path expressions neither of which is a prefix of the other. Assumes only that text over eE+-. alone is not a double."
  },
  {
   "property": "C16",
   "status": "proved",
   "theorems": [
    "Hocon.Value.C16_total",
    "Hocon.Value.C16_precedence"
   ],
   "note": "For all resolved well-formed trees (statuses right, keys distinct) and all paths: what is visible at every path of the merge; C16_total: the merge never fails."
  },
  {
   "property": "C17",
   "status": "proved",
   "theorems": [
    "Hocon.Value.C17_assoc",
    "Hocon.Value.C17_unresolved_throws",
    "Hocon.Value.C17_unresolved_nested"
   ],
   "note": "For all resolved well-formed values, exact equality including the flags that govern later merges. For unresolved values it fails (C17_unresolved_throws, C17_unresolved_nested), which the property excludes."
  },
  {
   "property": "C18",
   "status": "proved",
   "theorems": [
    "Hocon.Value.C18_empty_right",
    "Hocon.Value.C18_empty_left",
    "Hocon.Value.C18_idempotent"
   ],
   "note": "Exact equality for all resolved well-formed configs."
  },
  {
   "property": "C19",
   "status": "proved",
   "theorems": [
    "Hocon.Value.C19_keys",
    "Hocon.Value.C19_keys_nodup",
    "Hocon.Value.C19_closed"
   ],
   "note": "For all simple objects, resolved or not, where the receiver still accepts fallbacks; an object that was already merged over a non-object keeps its keys (C19_closed)."
  },
  {
   "property": "C20",
   "status": "proved",
   "theorems": [
    "Hocon.Value.C20_chain",
    "Hocon.Value.C20_nested"
   ],
   "note": "Chains of any length with arbitrary (also unresolved) values after the non-object, and the same inside nested objects."
  },
  {
   "property": "C21",
   "status": "proved",
   "theorems": [
    "Hocon.ConfigParser.C21_last_wins",
    "Hocon.ConfigParser.C21_overwrites",
    "Hocon.ConfigParser.C21_json_distinct"
   ],
   "note": "For every list of children of an object without substitutions, '+=' and includes, the value seen at a path is the one given by the last assignments (specification Through over the written assignments); in JSON mode a repeated key throws."
  },
  {
   "property": "C22",
   "status": "proved",
   "theorems": [
    "Hocon.ConfigParser.C22_dotted_is_nested",
    "Hocon.ConfigParser.C22_contributes"
   ],
   "note": "A dotted key gives the same object as the nested braces, and contributes the same layers."
  },
  {
   "property": "C23",
   "status": "proved",
   "theorems": [
    "Hocon.RenderProps.C23_json_roundtrip",
    "Hocon.RenderProps.C23_parsed_roundtrip",
    "Hocon.RenderProps.C23_empty_key_lost",
    "Hocon.RenderProps.C23_control_character"
   ],
   "note": "JSON rendering, formatted or not, comments off; read back in both syntaxes. C23_empty_key_lost and C23_control_character show that the restrictions on keys and strings are needed. Assumes HexOk (sscanf) and for parsed values NoNaN."
  },
  {
   "property": "C24",
   "status": "proved",
   "theorems": [
    "Hocon.Resolve.C24_resolved_noop"
   ],
   "note": "Resolving a resolved config returns the same tree for every source, environment and options."
  },
  {
   "property": "C25",
   "status": "partial",
   "theorems": [
    "Hocon.Resolve.C25_no_substitution_left_partial",
    "Hocon.Resolve.C25_parsed_partial",
    "Hocon.Resolve.C25_stale_status"
   ],
   "note": "Proved for all trees whose stored resolve status is right, in particular everything parsed; with_value breaks the status and the claim (C25_stale_status)."
  },
  {
   "property": "C26",
   "status": "partial",
   "theorems": [
    "Hocon.Resolve.C26_field_value_partial",
    "Hocon.Resolve.C26_rest_partial",
    "Hocon.Resolve.C26_meaning_partial",
    "Hocon.C26_merged_partial"
   ],
   "note": "Proved for configs without delayed merges whose optional substitutions have calm paths, for all reference graphs, and (C26_merged_partial) for configs with repeated settings to which the semantics of C65 gives a value. Missing: delayed merges in configs outside that semantics (substitutions whose paths lead through other substitutions)."
  },
  {
   "property": "C27",
   "status": "partial",
   "theorems": [
    "Hocon.Resolve.C27_required_cycle_partial",
    "Hocon.Resolve.C27_error_class_partial",
    "Hocon.Resolve.C27_diverges",
    "Hocon.Resolve.C27_diverges_texts",
    "Hocon.Resolve.C27_terminates_partial"
   ],
   "note": "The code violates the claim: C27_diverges gives two configs on which resolve never ends. Termination is proved for all objects, cyclic or not and with delayed merges, when optional substitutions have one-key paths and no environment variable plays a part; required cycles never resolve normally (configs as for C26); for all inputs the internal not-possible error never leaves resolve (C27_error_class_partial)."
  },
  {
   "property": "C28",
   "status": "partial",
   "theorems": [
    "Hocon.Resolve.C28_missing_required_partial",
    "Hocon.Resolve.C28_missing_path_partial",
    "Hocon.Resolve.C28_missing_key_partial"
   ],
   "note": "Proved for all configs, with any delayed merges and cycles, when the path leads through objects to a missing key or into a scalar or list (C28_missing_path_partial), and for every absent path when the config has no delayed merges (conditions as for C26). Missing: paths through other substitutions in configs with delayed merges."
  },
  {
   "property": "C29",
   "status": "proved",
   "theorems": [
    "Hocon.Value.C29_has_path",
    "Hocon.Value.C29_has_path_or_null",
    "Hocon.Value.C29_get_value",
    "Hocon.Value.C29_get_is_null",
    "Hocon.Value.C29_agree",
    "Hocon.Value.C29_unresolved"
   ],
   "note": "On resolved, well-formed configs has_path, has_path_or_null, get_value and get_is_null are characterised by the value at the path, and agree. C29_unresolved shows 'resolved' is needed."
  },
  {
   "property": "C30",
   "status": "proved",
   "theorems": [
    "Hocon.Value.C30_distinct",
    "Hocon.Value.C30_entry_set",
    "Hocon.Value.C30_unique",
    "Hocon.Value.C30_get_value"
   ],
   "note": "Entries are exactly the non-null non-object values with their rendered paths; rendering is injective; get_value on an entry's expression returns the entry when the expression is read back (C01)."
  },
  {
   "property": "C31",
   "status": "partial",
   "theorems": [
    "Hocon.Value.C31_get_long_partial",
    "Hocon.Value.C31_get_int_partial",
    "Hocon.Value.C31_not_a_number",
    "Hocon.Value.C31_fraction_dropped",
    "Hocon.Value.C31_out_of_range_undefined",
    "Hocon.Value.C31_witness"
   ],
   "note": "Integers stored as int, long or decimal text: exact, range-checked. Violated for numbers stored as double: get_int drops the fraction (C31_fraction_dropped, C31_witness) and is undefined out of range (C31_out_of_range_undefined)."
  },
  {
   "property": "C32",
   "status": "proved",
   "theorems": [
    "Hocon.Value.C32_get_string",
    "Hocon.Value.C32_get_bool",
    "Hocon.Value.C32_get_object",
    "Hocon.Value.C32_get_list"
   ],
   "note": "Exact characterisation of get_string, get_bool, get_object, get_list on resolved configs: success iff the value converts as documented, otherwise an exception, never undefined."
  },
  {
   "property": "C33",
   "status": "partial",
   "theorems": [
    "Hocon.Value.C33_new_key_partial",
    "Hocon.Value.C33_get_value_partial",
    "Hocon.Value.C33_existing_key_kept",
    "Hocon.Value.C33_wrong_object",
    "Hocon.Value.C33_not_retrievable",
    "Hocon.Value.C33_status_stale",
    "Hocon.Value.C33_total"
   ],
   "note": "Holds when the first key of the path is new. Violated otherwise: an existing key is never replaced, and if the first key is an object the value goes to the wrong object (witness C33_not_retrievable); the resolve status is not updated (C33_status_stale)."
  },
  {
   "property": "C34",
   "status": "partial",
   "theorems": [
    "Hocon.Value.C34_removed",
    "Hocon.Value.C34_frame_partial",
    "Hocon.Value.C34_siblings_lost",
    "Hocon.Value.C34_witness"
   ],
   "note": "The path is removed for every config and path; everything inside the object that held it is kept. Violated: siblings of the first key are lost for longer paths, even if the path does not exist (C34_siblings_lost, C34_witness)."
  },
  {
   "property": "C35",
   "status": "partial",
   "theorems": [
    "Hocon.Value.C35_always_empty_or_undefined",
    "Hocon.Value.C35_nothing_else_partial",
    "Hocon.Value.C35_witness"
   ],
   "note": "Violated: with_only_path returns the empty config or is undefined, for every config and path (C35_always_empty_or_undefined). Only the 'nothing else remains' half holds."
  },
  {
   "property": "C36",
   "status": "proved",
   "theorems": [
    "Hocon.Value.C36_at_path",
    "Hocon.Value.C36_get_value",
    "Hocon.Value.C36_at_key"
   ],
   "note": "For all values and paths."
  },
  {
   "property": "C37",
   "status": "partial",
   "theorems": [
    "Hocon.Value.C37_same_equal_partial",
    "Hocon.Value.C37_narrow_partial",
    "Hocon.Value.C37_unequal_equal",
    "Hocon.Value.C37_concat_violated",
    "Hocon.Value.C37_big_double_undefined"
   ],
   "note": "Structurally equal values compare equal both ways; the converse holds for values whose objects have at most one field. Violated in general: only the last field visited counts, == is not symmetric and can throw std::out_of_range (C37_unequal_equal); undefined for doubles out of range."
  },
  {
   "property": "C38",
   "status": "partial",
   "theorems": [
    "Hocon.Duration.C38_exact_partial",
    "Hocon.Duration.C38_overflow_undefined",
    "Hocon.Duration.C38_negative_refused"
   ],
   "note": "Exact truncated quotient proved for all 64-bit amounts in all units unless the result overflows (proved: undefined behaviour instead of an exception) or the amount is negative and smaller than a second or the requested unit (proved: refused)."
  },
  {
   "property": "C39",
   "status": "proved",
   "theorems": [
    "Hocon.Duration.C39_units",
    "Hocon.Duration.C39_spelling_irrelevant",
    "Hocon.Duration.C39_unknown_unit"
   ],
   "note": "Accepted unit words are exactly the documented spellings; any spacing; other words are refused."
  },
  {
   "property": "C40",
   "status": "proved",
   "theorems": [
    "Hocon.Value.C40_roundtrip",
    "Hocon.Value.C40_plain",
    "Hocon.Value.C40_unwrapped_total",
    "Hocon.Value.C40_unresolved_throws",
    "Hocon.Value.C40_get_any_ref"
   ],
   "note": "Round trip for every tree with distinct map keys; the result is resolved; every resolved value unwraps."
  },
  {
   "property": "C41",
   "status": "partial",
   "theorems": [
    "Hocon.Value.C41_scalars_partial",
    "Hocon.Value.C41_empty_throws",
    "Hocon.Value.C41_single",
    "Hocon.Value.C41_lists",
    "Hocon.Value.C41_objects",
    "Hocon.Value.C41_mixture_throws_partial",
    "Hocon.Value.C41_text_after_list_dropped",
    "Hocon.ConfigParser.C41_source_text",
    "Hocon.ConfigParser.C41_text_after_list_document"
   ],
   "note": "Scalars, lists and objects join as specified; the text-after-list case and the empty string case violate the statement (C41_text_after_list_dropped, C41_empty_throws), so the scalar and mixture theorems are partial."
  },
  {
   "property": "C42",
   "status": "partial",
   "theorems": [
    "Hocon.ParseOptions.C42_setters",
    "Hocon.ParseOptions.C42_add_includer",
    "Hocon.Files.C42_document_syntax_partial",
    "Hocon.Files.C42_document_file_syntax",
    "Hocon.Files.C42_options_ignored",
    "Hocon.Files.C42_json_accepts_conf",
    "Hocon.Resolve.C42_resolve_options"
   ],
   "note": "Setters change only their own field; the document factory honours the syntax option. config::parse_string ignores its options (C42_options_ignored, C42_json_accepts_conf)."
  },
  {
   "property": "C43",
   "status": "partial",
   "theorems": [
    "Hocon.Files.C43_acyclic_partial",
    "Hocon.Files.C43_cycle_diverges"
   ],
   "note": "Without a cycle of includes parsing ends, nesting bounded by the rank of the file. The depth guard never fires, so a file that includes itself is included forever (C43_cycle_diverges)."
  },
  {
   "property": "C44",
   "status": "partial",
   "theorems": [
    "Hocon.Files.C44_both_partial",
    "Hocon.Files.C44_json_only_partial",
    "Hocon.Files.C44_conf_only_partial",
    "Hocon.Files.C44_default_missing",
    "Hocon.Files.C44_foreign_comes_out",
    "Hocon.Files.C44_conf_alone_refused",
    "Hocon.Files.C44_malformed_conf_ignored",
    "Hocon.Files.C44_missing_accepted"
   ],
   "note": "Both files, only .json, and only .conf with missing files allowed behave as stated. Violations: C44_conf_alone_refused, C44_malformed_conf_ignored, C44_missing_accepted."
  },
  {
   "property": "C45",
   "status": "proved",
   "theorems": [
    "Hocon.Origin.C45_comments",
    "Hocon.Origin.C45_empty",
    "Hocon.Origin.C45_order",
    "Hocon.Origin.C45_missing_origin_undefined"
   ],
   "note": "Comments of the merged origin are exactly those of the inputs. A missing (null) origin is undefined behaviour."
  },
  {
   "property": "C46",
   "status": "partial",
   "theorems": [
    "Hocon.ConfigParser.C46_top_partial",
    "Hocon.ConfigParser.C46_top_equal_partial",
    "Hocon.ConfigParser.C46_refers_to_outermost",
    "Hocon.ConfigParser.C46_nested_wrong",
    "Hocon.ConfigParser.C46_in_list_throws"
   ],
   "note": "For a field of the outermost object '+=' is the concatenation of the optional self reference and a one-element list. For a nested field the code refers to the wrong path (C46_nested_wrong), inside a list it throws."
  },
  {
   "property": "C47",
   "status": "proved",
   "theorems": [
    "Hocon.RenderProps.C47_list",
    "Hocon.RenderProps.C47_object"
   ],
   "note": "Unresolved merges as field values (which render as several entries) are excluded."
  },
  {
   "property": "C48",
   "status": "partial",
   "theorems": [
    "Hocon.DocParser.C48_parse_terminates",
    "Hocon.DocParser.C48_json_defined_partial",
    "Hocon.DocParser.C48_conf_defined_partial",
    "Hocon.DocParser.C48_bad_key_undefined",
    "Hocon.DocParser.C48_bad_escape_undefined",
    "Hocon.DocParser.C48_large_numeral_undefined"
   ],
   "note": "The code violates the full claim in three ways (each a proved witness); proved: these are the only causes of undefined behaviour of tokenizer and document parser, and parsing terminates."
  },
  {
   "property": "C49",
   "status": "partial",
   "theorems": [
    "Hocon.DocEdit.C49_set_diverges",
    "Hocon.DocEdit.C49_set_terminates_partial",
    "Hocon.DocEdit.C49_remove_terminates"
   ],
   "note": "without_path always terminates; with_value_text terminates for every value text without a line break; C49_set_diverges shows that it loops forever for a multi-line value in an unindented document."
  },
  {
   "property": "C50",
   "status": "partial",
   "theorems": [
    "Hocon.DocEdit.C50_reparse_fails",
    "Hocon.DocEdit.C50_section_violated",
    "Hocon.DocEdit.C50_set_reparses_partial",
    "Hocon.DocEdit.C50_changes_reparse_partial",
    "Hocon.DocEdit.C50_replace_reparses_partial",
    "Hocon.DocEdit.C50_edits_reparse_partial",
    "Hocon.DocEdit.C50_slash_violated"
   ],
   "note": "The code violates this: C50_reparse_fails (doubled comma), C50_section_violated (section without separator), C50_slash_violated (slash before a comment). Proved: in any HOCON text in which no line begins with a comma, any number of removals and of replacements by one-line texts gives a document whose text parses to it, if each replaced path has a field of its own and is nowhere set without a separator on the line of the value (C50_set_reparses_partial, C50_changes_reparse_partial; C50_replace_reparses_partial and C50_edits_reparse_partial for paths set once, without the condition on commas). For JSON documents see C77, C78, C80. Missing: added paths, multi-line value texts, values on a later line than their separator."
  },
  {
   "property": "C51",
   "status": "partial",
   "theorems": [
    "Hocon.Value.C51_missing_sliced",
    "Hocon.Value.C51_never_missing_or_wrong_type",
    "Hocon.Value.C51_null_partial"
   ],
   "note": "Violated: missing_exception and wrong_type_exception never reach the caller (C51_never_missing_or_wrong_type, C51_missing_sliced); null_exception does (C51_null_partial)."
  },
  {
   "property": "C52",
   "status": "partial",
   "theorems": [
    "Hocon.Duration.C52_whole_fraction_refused"
   ],
   "note": "Violated: proved that a fractional spelling with a whole number of seconds is always refused. Floating-point operations are external functions."
  },
  {
   "property": "C53",
   "status": "partial",
   "theorems": [
    "Hocon.Origin.C53_first_line_partial",
    "Hocon.Origin.C53_unknown_line_partial",
    "Hocon.Origin.C53_first_line_lost"
   ],
   "note": "Holds for two single-line origins; violated for three lines of one file (proved for all lines)."
  },
  {
   "property": "C54",
   "status": "partial",
   "theorems": [
    "Hocon.Value.C54_bool_list",
    "Hocon.Value.C54_int_list_partial",
    "Hocon.Value.C54_long_list_partial",
    "Hocon.Value.C54_double_list_partial",
    "Hocon.Value.C54_string_list_partial",
    "Hocon.Value.C54_object_list_partial",
    "Hocon.Value.C54_object_list_foreign",
    "Hocon.Value.C54_config_list_unusable",
    "Hocon.Value.C54_config_list_partial",
    "Hocon.Value.C54_no_conversion"
   ],
   "note": "Exact for elements stored with the requested type; violated: no conversions, get_config_list always throws, get_object_list throws a non-config exception."
  },
  {
   "property": "C55",
   "status": "partial",
   "theorems": [
    "Hocon.Origin.C55_line_number",
    "Hocon.Origin.C55_comments_partial",
    "Hocon.Origin.C55_comments_not_cleared",
    "Hocon.Origin.C55_append",
    "Hocon.Origin.C55_prepend"
   ],
   "note": "Violated only for with_comments of an empty list, which keeps the old comments."
  },
  {
   "property": "C56",
   "status": "proved",
   "theorems": [
    "Hocon.EditRead.C56_files",
    "Hocon.ConfigParser.C56_include_is_layer"
   ],
   "note": "Proved for objects without substitutions and '+=', with any includer that returns such objects."
  },
  {
   "property": "C57",
   "status": "partial",
   "theorems": [
    "Hocon.Files.C57_root_partial",
    "Hocon.Files.C57_not_relativized"
   ],
   "note": "Holds when the include stands at the root; below a path the code does not prepend the path (C57_not_relativized)."
  },
  {
   "property": "C58",
   "status": "partial",
   "theorems": [
    "Hocon.Files.C58_relative_partial",
    "Hocon.Files.C58_basename_not_relative"
   ],
   "note": "Holds for names with an extension; violated for names without one (C58_basename_not_relative)."
  },
  {
   "property": "C59",
   "status": "proved",
   "theorems": [
    "Hocon.Files.C59_values_defined"
   ],
   "note": "For every resolver used by include file(...) that is defined on objects and returns objects."
  },
  {
   "property": "C60",
   "status": "proved",
   "theorems": [
    "Hocon.JsonProps.C60_json_accepted",
    "Hocon.JsonProps.C60_big_integer",
    "Hocon.JsonProps.C60_non_ascii"
   ],
   "note": "JText is the grammar with denotation; C60_json_accepted covers all of it in both syntaxes. C60_big_integer and C60_non_ascii show that the int64 and ASCII restrictions are needed. Assumes sscanf reads four hexadecimal digits (HexOk)."
  },
  {
   "property": "C61",
   "status": "proved",
   "theorems": [
    "Hocon.RenderProps.C61_order_irrelevant"
   ],
   "note": "Comments are not modelled."
  },
  {
   "property": "C62",
   "status": "proved",
   "theorems": [
    "Hocon.HoconProps.C62_hocon_accepted",
    "Hocon.HoconProps.C62_fields"
   ],
   "note": "for the grammar Spec.HDoc: every text is accepted and gives exactly the denoted value; C62_fields says what the denoted object shows at each path"
  },
  {
   "property": "C63",
   "status": "proved",
   "theorems": [
    "Hocon.RenderProps.C63_hocon_roundtrip",
    "Hocon.RenderProps.C63_parsed_roundtrip",
    "Hocon.RenderProps.C63_root_list_unreadable"
   ],
   "note": "for objects; a list at the root that contains an object renders to a text that is refused (C63_root_list_unreadable)"
  },
  {
   "property": "C64",
   "status": "proved",
   "theorems": [
    "Hocon.Settings.C64_written_is_read",
    "Hocon.Settings.C64_unwritten_is_absent",
    "Hocon.Settings.C64_keys"
   ],
   "note": "for keys that do not begin with a digit, a minus sign or a literal; values other than objects (the fields of a section are asked one by one)"
  },
  {
   "property": "C65",
   "status": "partial",
   "theorems": [
    "Hocon.C65_resolves_partial",
    "Hocon.C65_unique",
    "Hocon.C65_each_setting",
    "Hocon.C65_append",
    "Hocon.C65_first_append",
    "Hocon.C65_override"
   ],
   "note": "For configs to which Spec.Ev gives a value. Ev gives none to lists whose first element vanishes and whose second changes: the code throws for them, see C89_throws_violated. Three and more appended values: see C66."
  },
  {
   "property": "C66",
   "status": "partial",
   "theorems": [
    "Hocon.C66_two_appends_partial",
    "Hocon.C66_third_append_violated",
    "Hocon.SubstTextProps.C66_appends_violated",
    "Hocon.SubstTextProps.C66_text_violated"
   ],
   "note": "The code violates the claim in general: a setting with three or more values appended to its first never resolves, whatever the other settings and options (C66_appends_violated; C66_text_violated for every text k = v with three or more lines k += x; C66_third_append_violated a witness). Proved for two appended values."
  },
  {
   "property": "C67",
   "status": "partial",
   "theorems": [
    "Hocon.NotesProps.C67_without_notes",
    "Hocon.NotesProps.C67_notes_roundtrip_partial",
    "Hocon.NotesProps.C67_newline_comment_violated"
   ],
   "note": "The code violates the claim: C67_newline_comment_violated gives a comment (set through with_comments) whose second line is read back as a setting. Proved for all resolved objects, all origins, all sixteen option combinations when no comment contains a newline; descriptions may contain newlines."
  },
  {
   "property": "C68",
   "status": "partial",
   "theorems": [
    "Hocon.SubstTextProps.C68_reads_partial",
    "Hocon.SubstTextProps.C68_reads_and_resolves_partial",
    "Hocon.SubstTextProps.C68_object_over_several_violated"
   ],
   "note": "Proved for every text of the grammar SDoc that has a meaning (DocMeans), including the resolved values (with C65). Missing because the code refuses or misreads them: += inside an object (C46), an object over a setting with several values that has an older object (witness C68_object_over_several_violated: parsing throws)."
  },
  {
   "property": "C69",
   "status": "partial",
   "theorems": [
    "Hocon.StatusProps.C69_parsed_partial",
    "Hocon.StatusProps.C69_merged_partial",
    "Hocon.StatusProps.C69_at_key_partial",
    "Hocon.StatusProps.C69_resolved_partial",
    "Hocon.StatusProps.C69_resolve_options_partial",
    "Hocon.StatusProps.C69_entry_points_partial",
    "Hocon.StatusProps.C69_with_value_violated"
   ],
   "note": "Proved for parse_string and parse_file_any_syntax (with the resolve of include file(..)), with_fallback, at_key, and resolve and resolve_with with all options. The code violates it for with_value (witness C69_with_value_violated)."
  },
  {
   "property": "C70",
   "status": "partial",
   "theorems": [
    "Hocon.UnresolvedProps.C70_reread_partial",
    "Hocon.UnresolvedProps.C70_parsed_partial",
    "Hocon.UnresolvedProps.C70_blank_violated",
    "Hocon.UnresolvedProps.C70_nested_violated"
   ],
   "note": "Proved: the text of every unresolved configuration of the supported kind (in particular every parsed document of the grammar of C68) is read back as the same tree, for all render options without comments. Refuted: a blank between two substitutions comes back as a quoted string, so the text may no longer resolve (C70_blank_violated); a stack of values inside another is rendered as a text that is refused (C70_nested_violated). Not covered: substitution paths whose text begins like a number or literal, strings outside the alphabet of C61, comments."
  },
  {
   "property": "C71",
   "status": "proved",
   "theorems": [
    "Hocon.CommentProps.C71_parse",
    "Hocon.CommentProps.C71_source_irrelevant",
    "Hocon.CommentProps.C71_lookup"
   ],
   "note": ""
  },
  {
   "property": "C72",
   "status": "partial",
   "theorems": [
    "Hocon.CommentProps.C72_comments_partial",
    "Hocon.CommentProps.C72_unique",
    "Hocon.CommentProps.C72_repeated_comment_violated",
    "Hocon.CommentProps.C72_path_comment_violated",
    "Hocon.CommentProps.C72_newline_not_counted",
    "Hocon.CommentProps.C72_last_comment_violated",
    "Hocon.CommentProps.C72_include_comment_violated"
   ],
   "note": "Documents made of lines with scalar values on one line, sections and keys of one element, each set once, no braces around the document. The theorem gives lines and comments in both directions. Missing: other values, dotted and repeated keys. Witnesses show where the code departs from the claim: repeated comments, dotted keys, newlines before a value, the last comment, include."
  },
  {
   "property": "C73",
   "status": "partial",
   "theorems": [
    "Hocon.PositionProps.C73_positions_partial",
    "Hocon.PositionProps.C73_comments",
    "Hocon.PositionProps.C73_lookup",
    "Hocon.PositionProps.C73_description_violated"
   ],
   "note": "Everything except that sources whose description begins with 'merge of ' are excluded from the position theorem (the code strips the words, C73_description_violated). Includes: the comment half is proved for all includers, the position half for texts without includes; positions with includes and files are C86."
  },
  {
   "property": "C74",
   "status": "partial",
   "theorems": [
    "Hocon.LinesEditProps.C74_set_partial"
   ],
   "note": "Proved for documents of lines (comments, blank lines, one-element keys with scalars on one line, nested sections) with distinct keys and for every scalar that is written on one line. Missing: dotted keys, keys set twice, values over several lines, lists, braces around the document."
  },
  {
   "property": "C75",
   "status": "partial",
   "theorems": [
    "Hocon.LinesRemoveProps.C75_remove_partial",
    "Hocon.LinesRemoveProps.C75_comment_moves_violated"
   ],
   "note": "Proved for documents of lines (scalars on one line, sections, single keys set once) without an enclosing brace. Violated in the code when a comment stands behind what is removed: it stays, and with the comments above it goes to the next setting (witness)."
  },
  {
   "property": "C76",
   "status": "partial",
   "theorems": [
    "Hocon.LinesAddProps.C76_add_partial",
    "Hocon.LinesAddProps.C76_comment_swallows_violated"
   ],
   "note": "Proved for documents of lines (scalars on one line, sections, single keys set once) without an enclosing brace, new scalars on one line, at the end of the document when it ends with a newline or in an existing section, paths of several elements without quotes. Missing: sections created on the way, empty documents, other values. Violated in the code when the document ends in a comment without a newline: the new setting becomes part of the comment (witness)."
  },
  {
   "property": "C77",
   "status": "proved",
   "theorems": [
    "Hocon.JsonEditProps.C77_set_json"
   ],
   "note": "JSON texts as in C60 (ASCII strings, integers of int64_t). Paths that have no value yet, and paths through arrays, are not covered."
  },
  {
   "property": "C78",
   "status": "partial",
   "theorems": [
    "Hocon.JsonAddProps.C78_add_json_partial",
    "Hocon.JsonAddProps.C78_through_scalar_violated",
    "Hocon.JsonAddProps.C78_mixed_path_violated",
    "Hocon.JsonAddProps.C78_blank_in_path_violated"
   ],
   "note": "Proved for JSON syntax and paths whose elements are all quoted or all unquoted words, leading through objects only. Missing: documents opened as HOCON. False for paths through other values, mixed paths and unquoted elements with blanks (violated theorems)."
  },
  {
   "property": "C79",
   "status": "partial",
   "theorems": [
    "Hocon.ValueProps.C79_set_partial",
    "Hocon.ValueProps.C79_add_partial",
    "Hocon.ValueProps.C79_set_lines_partial",
    "Hocon.ValueProps.C79_null",
    "Hocon.ValueProps.C79_comment_violated"
   ],
   "note": "Proved for JSON documents (existing paths in both syntaxes, new paths in JSON syntax) and all resolved values without comments inside, and for scalars in documents made of lines. False for values with comments in JSON documents (violated theorem)."
  },
  {
   "property": "C80",
   "status": "partial",
   "theorems": [
    "Hocon.JsonRemoveProps.C80_remove_json_partial",
    "Hocon.JsonRemoveProps.C80_comma_line_violated"
   ],
   "note": "proved in JSON syntax for documents in which no comma begins a line; false otherwise (C80_comma_line_violated); documents opened as HOCON not covered"
  },
  {
   "property": "C81",
   "status": "partial",
   "theorems": [
    "Hocon.DocEdit.C81_remove_reparses_partial",
    "Hocon.DocEdit.C81_removals_reparse_partial",
    "Hocon.DocEdit.C81_read_back_partial",
    "Hocon.DocEdit.C81_comma_violated"
   ],
   "note": "proved for every HOCON text in which no line begins with a comma, any path, any number of removals; C81_comma_violated shows that the condition is needed; C81_read_back_partial (has_path after reading back) has no further condition on the path"
  },
  {
   "property": "C82",
   "status": "proved",
   "theorems": [
    "Hocon.ProgOptionsProps.C82_options",
    "Hocon.ProgOptionsProps.C82_refused",
    "Hocon.ProgOptionsProps.C82_unique",
    "Hocon.ProgOptionsProps.C82_get_string",
    "Hocon.ProgOptionsProps.C82_parse_string",
    "Hocon.ProgOptionsProps.C82_parse_file",
    "Hocon.ProgOptionsProps.C82_written"
   ],
   "note": "The order of the options and the conversion to wide characters are not modelled; which options are registered is a parameter. C82_parse_string and C82_written cover texts; parse_file is modelled and differs only in how the text is found."
  },
  {
   "property": "C83",
   "status": "partial",
   "theorems": [
    "Hocon.Duration.C83_fraction_partial",
    "Hocon.Duration.C83_whole_refused",
    "Hocon.Duration.C83_negative_refused",
    "Hocon.Duration.C83_not_a_number"
   ],
   "note": "Proved for arithmetic that does not round on the amount (hypothesis Unrounded). The code violates the property for whole numbers of seconds written with a fraction and for small negative amounts; these are theorems too."
  },
  {
   "property": "C84",
   "status": "partial",
   "theorems": [
    "Hocon.FList.C84_front",
    "Hocon.FList.C84_take",
    "Hocon.FList.C84_inserted",
    "Hocon.FList.C84_removed",
    "Hocon.FList.C84_removed1_partial",
    "Hocon.FList.C84_removed1_all",
    "Hocon.FList.C84_member",
    "Hocon.FList.C84_combinators",
    "Hocon.FList.C84_sets",
    "Hocon.FList.C84_iterate"
   ],
   "note": "removed1 is violated by the code; the theorem says exactly when it does what its name says. Everything else is proved."
  },
  {
   "property": "C85",
   "status": "partial",
   "theorems": [
    "Hocon.Includers.C85_fallback_partial",
    "Hocon.Includers.C85_proxy_ignores",
    "Hocon.Includers.C85_cycle",
    "Hocon.Includers.C85_application",
    "Hocon.Includers.C85_file",
    "Hocon.Includers.C85_file_answered",
    "Hocon.Includers.C85_file_fallback",
    "Hocon.Includers.C85_everywhere",
    "Hocon.Includers.C85_default",
    "Hocon.Includers.C85_string_default",
    "Hocon.Includers.C85_string_violated"
   ],
   "note": "Violated by parse_string and by proxies (theorems). with_fallback is proved for answers without substitutions, under the documented contract for classes of the application."
  },
  {
   "property": "C86",
   "status": "partial",
   "theorems": [
    "Hocon.SourceProps.C86_string_partial",
    "Hocon.SourceProps.C86_file_partial",
    "Hocon.SourceProps.C86_file_values",
    "Hocon.SourceProps.C86_string_values",
    "Hocon.SourceProps.C86_included_violated"
   ],
   "note": "values of included files have an empty description in the code (C86_included_violated); proved: lines of the named source, of some included file under the empty description, or joined descriptions, or a variable of the environment (include file(...) resolves what it reads)."
  },
  {
   "property": "C87",
   "status": "proved",
   "theorems": [
    "Hocon.LayerProps.C87_earlier_is_fallback",
    "Hocon.LayerProps.C87_many"
   ],
   "note": "For all sequences of texts of the grammar of C62 without enclosing braces; equality of the key/value maps (the order of a hash map is not fixed)."
  },
  {
   "property": "C88",
   "status": "partial",
   "theorems": [
    "Hocon.ShownProps.C88_read_back_partial",
    "Hocon.ShownProps.C88_stable_partial",
    "Hocon.ShownProps.C88_origins_violated"
   ],
   "note": "Trees of sections and scalars in HOCON style on several lines (lists, empty objects, JSON style and texts on one line are missing). With origins shown the claim is false: C88_origins_violated."
  },
  {
   "property": "C89",
   "status": "partial",
   "theorems": [
    "Hocon.ListSubstProps.C89_left_out_partial",
    "Hocon.ListSubstProps.C89_if_returned_partial",
    "Hocon.ListSubstProps.C89_throws_violated",
    "Hocon.ListSubstProps.C89_witness_violated"
   ],
   "note": "Violated by the code: a list whose first element vanishes and whose second vanishes or is a substitution makes resolve() throw (C89_throws_violated for all such configs, C89_witness_violated a text; simple_config_list.cc 188-205). Proved: whenever resolve() returns, the list is the right one; and it returns whenever Spec.Ev gives the config a value, which excludes only these lists among lists of settled values."
  },
  {
   "property": "C90",
   "status": "partial",
   "theorems": [
    "Hocon.NamedProps.C90_with_fallback",
    "Hocon.NamedProps.C90_layers_partial",
    "Hocon.NamedProps.C90_named",
    "Hocon.NamedProps.C90_include_violated",
    "Hocon.ResolveOriginProps.C90_resolve_violated"
   ],
   "note": "Proved for with_fallback of all trees whose descriptions do not say 'merge of ' twice, and for layers of texts without includes. Violated by includes (C90_include_violated): the section with the include statement names its own file only; and by resolve (C90_resolve_violated): a section keeps its origin whatever is substituted inside."
  },
  {
   "property": "C91",
   "status": "proved",
   "theorems": [
    "Hocon.ResolveOriginProps.C91_values",
    "Hocon.ResolveOriginProps.C91_origins",
    "Hocon.ResolveOriginProps.C91_string",
    "Hocon.ResolveOriginProps.C91_comments"
   ],
   "note": "resolve and resolve_with for all configurations; texts with includes by C86. Values compared by address in the code are compared without origins."
  },
  {
   "property": "C92",
   "status": "partial",
   "theorems": [
    "Hocon.ResolveOriginProps.C92_resolve_with_partial",
    "Hocon.ResolveOriginProps.C92_plain_kept",
    "Hocon.ResolveOriginProps.C92_section_kept",
    "Hocon.ResolveOriginProps.C92_list_kept",
    "Hocon.ResolveOriginProps.C92_root_kept",
    "Hocon.ResolveOriginProps.C92_string_partial"
   ],
   "note": "resolve and resolve_with for settings in sections, chains of substitutions of any length, texts with files; settings without substitutions, sections, lists and the root keep their origins. Missing: paths through sections that are themselves still to be merged with a substitution (delayed merges), and optional substitutions before the end of a chain."
  },
  {
   "property": "C93",
   "status": "partial",
   "theorems": [
    "Hocon.SeenProps.C93_set",
    "Hocon.SeenProps.C93_resolve_partial",
    "Hocon.SeenProps.C93_kept",
    "Hocon.SeenProps.C93_texts_partial"
   ],
   "note": "Any number of layers, texts without includes and all trees with exact resolve status. Missing: paths that several layers set when the upper value has substitutions or is a section, non-objects of another layer on the way, and optional substitutions before the end of a chain."
  },
  {
   "property": "C94",
   "status": "partial",
   "theorems": [
    "Hocon.RelaxedProps.C94_same",
    "Hocon.RelaxedProps.C94_two_steps",
    "Hocon.RelaxedProps.C94_never_missing",
    "Hocon.RelaxedProps.C94_left",
    "Hocon.RelaxedProps.C94_stays_partial",
    "Hocon.RelaxedProps.C94_optional_partial",
    "Hocon.RelaxedProps.C94_text_partial",
    "Hocon.RelaxedProps.C94_optional_violated"
   ],
   "note": "Same results, two steps, no exception and nothing made up: for all trees. What stays and what goes: for settings in sections whose paths lead through objects only. Fails in lists whose first optional element vanishes (C94_optional_violated)."
  },
  {
   "property": "C95",
   "status": "partial",
   "theorems": [
    "Hocon.DocEdit.C95_remove_twice",
    "Hocon.DocEdit.C95_remove_commute",
    "Hocon.DocEdit.C95_set_twice_partial",
    "Hocon.DocEdit.C95_set_remove_partial",
    "Hocon.DocEdit.C95_set_commute_partial",
    "Hocon.DocEdit.C95_set_remove_commute_partial",
    "Hocon.DocEdit.C95_multiline_violated",
    "Hocon.DocEdit.C95_add_remove_violated",
    "Hocon.DocEdit.C95_add_order"
   ],
   "note": "Removals: proved for all documents (idempotent, any order). Setting twice: proved for second values on one line; with line breaks the code violates it (C95_multiline_violated). Setting then removing, and reordering edits with settings: proved for paths that are set themselves; for added paths the code violates it (C95_add_remove_violated) or the order decides where the new settings stand (C95_add_order)."
  },
  {
   "property": "C96",
   "status": "partial",
   "theorems": [
    "Hocon.EditRead.C96_removed_partial",
    "Hocon.EditRead.C96_replaced_partial",
    "Hocon.EditRead.C96_edits_partial",
    "Hocon.EditRead.C96_files_partial",
    "Hocon.EditRead.C96_concat_violated",
    "Hocon.EditRead.C96_hidden_violated",
    "Hocon.EditRead.C96_include_violated"
   ],
   "note": "Proved for texts without substitutions and += in which no line begins with a comma, with includes of files that are read as objects without substitutions, for one removal or replacement and (C96_edits_partial) for any sequence of them; what is at the edited path itself for documents without includes and concatenated objects (the code violates it for those, C96_include_violated, C96_concat_violated); replaced values on one line, on paths with fields of their own. The replaced path is read as the new value if every field above it has an object as its value; otherwise as the new value or not at all, since a later setting may hide it (C96_hidden_violated)."
  },
  {
   "property": "C97",
   "status": "partial",
   "theorems": [
    "Hocon.EditRead.C97_moved_partial",
    "Hocon.EditRead.C97_files_partial",
    "Hocon.EditRead.C97_nested_partial",
    "Hocon.EditRead.C97_section_partial",
    "Hocon.EditRead.C97_extension_violated"
   ],
   "note": "Proved for settings without substitutions and += that are moved from a HOCON text to a .conf file and included with the extension, by include or include file, in both directions (C97_moved_partial, C97_files_partial; C97_nested_partial with includes among the moved settings; C97_section_partial out of a section of any depth). Violated without the extension (C97_extension_violated). Missing: substitutions, sections in lists and concatenations, .json files."
  },
  {
   "property": "C98",
   "status": "partial",
   "theorems": [
    "Hocon.Origin.C98_neighbours_partial",
    "Hocon.Origin.C98_same_line_violated"
   ],
   "note": "Proved if the origin of the other source is not on the lines of its neighbour and no description begins with 'merge of ' (C98_neighbours_partial, both orders). Violated on the same line (C98_same_line_violated). Missing: more than three origins."
  },
  {
   "property": "C99",
   "status": "partial",
   "theorems": [
    "Hocon.DocEdit.C99_indented_partial",
    "Hocon.DocEdit.C99_document_partial",
    "Hocon.DocEdit.C99_text_partial",
    "Hocon.DocEdit.C99_first_violated"
   ],
   "note": "Proved for a path with one setting, in the root object or in sections, that is not the first child of its object, for values whose newlines stand between settings and elements (C99_document_partial; C99_text_partial about the texts). Violated for the first setting of a document without braces (C99_first_violated). Missing: paths set several times."
  }
 ]
}