# cpp-hocon: formal model and proofs

Source of truth: `/repo` (puppetlabs/cpp-hocon at the pinned commit), read as text.
Model and proofs: `/verif/lean` (Lean 4.33, Lake project, `lake build`).
Properties: `properties.jsonl`; status per property: `MANIFEST.json`;
mutation log: `seeded/LOG.jsonl`.

## Approach

The model is a set of small total Lean functions, one per C++ function, each with a
comment citing the file and lines it models. Conventions:

* **Strings** are `List Char`; a `Char` stands for one byte of the `std::string`.
  Theorems quantify over all `Char`s, which covers all bytes 0..255. `char` is taken
  to be signed (x86 ABI), so bytes >= 0x80 are negative.
* **Outcomes** are `Res α`: `ok a`, `err e` (a C++ exception of class `e`), `ub`
  (the C++ has undefined behaviour here: null dereference, uninitialised read, ...),
  `fuel` (the model ran out of recursion fuel; theorems show it does not happen where
  termination is claimed).
* **External functions** (`lexical_cast<double>`, double/int64 conversions, `sscanf("%hx")`,
  `nowide::narrow`, `getenv`) are fields of a structure `Env`, and theorems quantify over
  every `Env`; nothing is assumed about them unless written as a hypothesis.
* **Streams**: a `std::istream` is the list of characters not yet read. Reading at the end
  sets failbit permanently (putback after a failed get does not clear it), so "failed" and
  "empty" behave alike in every place the code looks; see `Verif/Tokenizer.lean`.
* **Shared pointers** are values; pointer identity is only modelled where the code tests it.
* **Origins** are modelled only as line numbers (tokens) and in `Origin.lean`.

Specifications are written separately from the model helpers (files `*Spec.lean` or
definitions marked "Specification"), property theorems are in `Verif/Props/*.lean`,
each followed by `example`s that show its hypotheses are satisfiable.

## Plan per property

| id | what is modelled | how it is proved |
|----|------------------|------------------|
| C01 | path.cc render, config_util.cc, tokenizer.cc, path_parser.cc | induction over elements through the tokenizer |
| C02 | path_parser.cc fast path and token path | both equal a dot-split specification |
| C03 | path.cc, path_builder.cc | list laws, refinement to `List` |
| C04 | path_parser.cc | invariant of the element accumulator |
| C05 | config_util.cc, tokenizer.cc pull_quoted_string | induction over the string |
| C06 | tokenizer.cc | invariant: consumed text = emitted text; the code loses blanks before `}` in `${a }` and NULs in `\u`, so a `_partial` theorem plus witnesses |
| C07 | tokenizer.cc | fuel adequacy + shape invariant |
| C08 | tokenizer.cc | invariant on the line counter; witness where the code is off by one |
| C09 | tokenizer.cc whitespace_saver | simulation between the two runs |
| C10 | config_document_parser.cc, nodes/*.cc | parser invariant: node text ++ remaining tokens = input tokens; the code drops `)` of include forms (witness) |
| C11 | config_document_parser.cc in JSON mode | invariant over consumed tokens |
| C12-C15 | nodes/config_node_object.cc etc. | structural induction on node trees; a path text that both the fast and the full path parser accept has no newline, and one that the full parser accepts has the same tokens with and without comments, so the path of the edit is that of `has_path` |
| C16-C20 | values/config_value.cc, simple_config_object.cc | refinement to a keywise deep merge on finite maps |
| C21, C22 | config_parser.cc | induction over fields |
| C23, C47 | render functions + whole parser | round trip by induction over value trees |
| C24-C28 | resolve_*.cc, config_reference.cc, ... | induction on fuel / derivation |
| C29-C37 | config.cc, simple_config_object.cc, default_transformer.cc | induction over paths/trees; several documented defects as witnesses |
| C38, C39 | config.cc durations | integer arithmetic, case analysis of unit names |
| C40 | config_value_factory.cc | structural induction |
| C41 | config_concatenation.cc | induction over pieces |
| C42-C44 | parseable.cc, simple_includer.cc, config_parse_options.cc | decision logic over an abstract parser/file system |
| C45 | simple_config_origin.cc | induction over the list of origins |
| C46 | config_parser.cc | the code uses the wrong path in nested objects: witness + partial |
| C48 | whole parsing pipeline | invariant: no `ub`; witnesses for the cases the code gets wrong |
| C49, C50 | nodes/config_node_complex_value.cc, config_node_object.cc | fuel: the divergence of `indent_text` is an explicit outcome; witnesses. C50 for replaced values: the tokens of the new text are the old ones with the tokens of the value exchanged (`Lemmas/Lex*.lean`), and the parser run on them does the same outside the value (`Lemmas/Parser*.lean`, `Reparse*.lean`); for paths set several times the backward loop is a sequence of cuts (C81) and exchanges (`Lemmas/SetEdit.lean`) |
| C51 | config.cc exceptions (`throw ex` slices) | outcome classes through `recatch`; the claim is violated |
| C52 | config.cc durations with doubles | floating-point operations are parameters; the claim is violated |
| C53, C55 | simple_config_origin.cc | case analysis, induction over the list of origins |
| C54 | config.cc / config.hpp list getters | induction over the elements |
| C56 | config_parser.cc parse_include | the layers of an object (specification) with includes expanded; `C56_files`: the same for files read with the default includer, when no file has a substitution (`Lemmas/TameFiles`) |
| C57, C58 | simple_includer.cc, parseable.cc | file system and resolver are parameters |
| C59 | config_parser.cc on the output of the document parser | invariant: nodes come from the parser, so no null pointer is met |
| C60 | whole pipeline on JSON text | `JText`: a relational JSON grammar with denotation; lexing lemma, then the parser in both syntaxes |
| C61 | simple_config_object.cc render, sort | insertion into a sorted list commutes for distinct keys |
| C62 | whole pipeline on HOCON text | `HDoc`: a relational grammar over characters with denotation (merging specified by `Spec.over`); lexing lemma to a token grammar, then the parsers |
| C63 | render functions with json = false, then the whole pipeline | rendered objects are texts of `HDoc`; merging keeps values renderable; C62 |
| C64 | whole pipeline: text, parse, resolve, path expression, getter | C62, C24, C29, C31, C32; settings (`Spec/Settings.lean`) by induction over the fields; keys are path expressions |
| C65 | `resolveN` with delayed merges, `configResolve` | big-step semantics `Spec/Settle.lean` (`Ev`, without contexts, markers in use, partial sources); the resolver computes it, by induction on the derivation, given enough fuel |
| C66 | the same, and the parser for the witness | inversion of the semantics for two appended values; with three or more `resolve()` never succeeds (Verif/Lemmas/ManyAppends.lean, for all such trees and texts, and a witness) |
| C67 | render with comments and origins, then the whole pipeline | every rendering is a text of `HDoc` whose gaps hold the notes; C62. Witness: a comment with a newline |
| C68 | whole pipeline on HOCON text with substitutions | `SDoc`: the grammar of C62 with substitutions, `+=` and pieces; `DocMeans`: the settings a text stands for (relational, with its own account of merging and joining); the parser computes it; then C65 |
| C69 | parser, `withFallback`, `atKey`, `configResolve` | invariant of everything built from parts (`Built`), by induction over nodes and values; for an incomplete resolve: whatever `resolveN` returns has an exact status and what it drops had one, by induction on the depth (sources need only be sound, they may hold merges whose parts are all resolved). Witness: `with_value` |
| C70 | render functions on unresolved values, then the whole pipeline | the rendering of a tree of the kind `Textual` is a text of `SDoc` that stands for a tree `Like` it; then C68. Documents of `SDoc` give such trees. Witnesses: blanks, nested stacks |
| C71 | config_parser.cc, merging, concatenation and lookup once more, on values with origins | forgetting the origins commutes with every function of the model (mutual induction over the syntax tree) |
| C72 | the same; comments and newlines from the tokenizer to the origins | a grammar of lines (`HLines`); the tokens of the lines by induction over it, then the state of the loops over the nodes (comments collected, newline seen, line number), then lookup. Witnesses for the departures listed below |
| C73 | the same, with the tokenizer's line counter | an invariant on origins closed under merging and adding comments, carried through merging, concatenation and the mutual recursion of the parser; lines by counting newlines of the tree, tokens by induction over the tokenizer. Witness for descriptions beginning with `merge of ` |
| C74 | the document editing of C12 to C15 and the parsing with origins of C72 | the grammar of lines with one value left open; its tokens and nodes by induction, the open value being the only place where the path occurs; the edit changes exactly this node, so the new text is again of the grammar, and C72 says what it means |
| C75 | the same, with removal instead of replacement | the grammar of lines with one item marked; the removed node and the separators behind it are one stretch of the nodes, so the new text is again of the grammar with a blank line or a comment line in place of the item; what the lines say with and without the item by induction. Witness: the comments of the removed setting go to the next one |
| C76 | the same, with a new setting | the grammar of lines with a place for one more line: the end of the document or of a section; `Put` says which nodes the insertion adds, the indentation is read off the shape of the nodes; the new text is again of the grammar with one more item, and what the lines say with it by induction. Witness: a comment without a newline at the end swallows the new setting |
| C77 | `Doc.withValueText` on JSON texts | the parser's result on a JSON text is a tree of a fixed shape (`Sh`) whose text is again in the JSON grammar; a path through objects has exactly one place in it (keys are distinct), `change_value_on_path` fills it, indentation keeps the shape, and C60 reads the new text |
| C78 | `Doc.withValueText` in JSON syntax, with the path parser's quoting of new keys | `Ins` says which nodes an insertion adds, for every syntax; in the tree shape of C77 the insertion loop puts the new member behind the last one, and its text is again in the JSON grammar; new objects by induction on the path |
| C79 | `Doc.withValue` (Verif/DocValue.lean) over the renderer with comments | without comments inside the value the rendered text is that of C23, a JSON text with a newline behind it that trimming removes; then C77, C78 and C74 apply to it |
| C80 | `Doc.withoutPath` on the node shapes of JSON documents (Verif/Lemmas/JsonRemove.lean) | the backward loop is described as a relation `Loop` composed from the back; induction over the members before the removed one and over the path; the text left is a JSON text again |
| C81 | `Doc.withoutPath` followed by `Doc.render` and `Doc.parse` (Verif/Lemmas/LexCut.lean, ParserRemove.lean, Remove*.lean) | the removal is a sequence of cuts of single fields; the tokens of the text left are the old ones without those of the field, its comma and the blanks before it; the parser, run on them, does the same before and behind the cut; if no line begins with a comma, every comma is on the line of its field, and this is kept |
| C82 | `ProgOptions.parseHocon`, `parseString`, `parseFile` (Verif/ProgOptions.lean) | from the description of `entry_set` (C30); the wanted settings are described by paths and values (Verif/Spec/Options.lean). The order of the options and the conversion to wide characters are not modelled; which options are registered is a parameter. |
| C83 | `Duration.convertDouble`, `getDuration` | fractions a/b over integers; the hypothesis `Unrounded` (Verif/Spec/Fractions.lean) says that quotient, remainder and products of this amount are exact. Rounding of doubles is not modelled, hence partial. |
| C84 | `FList` (Verif/FunctionalList.lean) | induction over lists; the specification is the library of Lean, membership, counts and positions. |
| C85 | `Includers.withFallback`, `incl`, `file?`, `fixup`, `loadFile`, `parseString` (Verif/Includers.lean) | classes of the application are a parameter with the documented contract as hypothesis; chains by induction with associativity and idempotence of merging (C17, C18); without an includer the model is shown equal to that of Verif/Include.lean. Answers with substitutions are missing for the fallback theorem. |
| C86 | `FilesA.loadFileA`, `includerA`, `mergeFoundA`, `parseFileAnySyntaxA`, `parseStringA` (Verif/IncludeNotes.lean) over `Notes.parseTextA` | spec `FromSources` (Verif/Spec/Sources.lean): texts with descriptions, lines of one of them or joined descriptions; invariant of merging origins carried through parser, includer and loader by induction on the nesting; values by erasing the origins (refinement of `Files`). `resolve` of `include file(...)` is that of C91 |
| C87 | `parseText`, `configWithFallback` | texts of fields `HFields` (Verif/Spec/Layers.lean) over the grammar of C62; texts one after the other derive the joined list of assignments; assigning one field is merging a nested object up to the order of keys, then associativity of merging and induction over the assignments and the texts |
| C88 | `Notes.renderValue`, `Notes.parseTextA`, `Notes.peekPathA` | spec `Section`, `Has`, `shown` (Verif/Spec/Shown.lean): the comments of a setting are the lines written before it; the rendered text is shown to derive from the line grammar of C72, block by block, with the blocks in the order of the sorted keys; then C72 and C67. Section trees only: lists, empty objects, JSON style and texts on one line are missing |
| C89 | `Resolve.resolveList`, `changedElems`, `modifiedList`, `configResolve` | spec `LeftOut` (Verif/Spec/ListSubst.lean); soundness through C26, returning through the semantics of C65; the lists that are not resolved are described by `Stuck` and proved to make `resolve()` throw, at any depth |
| C90 | `Notes.fallbackA`, `mergeStack`, `Origin.mergeOrigins`, `Notes.parseTextA` | spec `Told`, `sourcesIn` (Verif/Spec/Named.lean): descriptions split at commas; the merge of any number of origins names exactly the sources of all of them; induction over `fallbackA`; texts by C73. Includes violate it (the including section names only its own file), and so does `resolve` (sections keep their origin) |
| C91 | `ResolveA.configResolveWithA` and all it calls (Verif/ResolveNotes.lean): resolving on values with origins | refinement of `Resolve.configResolveWith` by erasing origins (Verif/Lemmas/ResolveErase.lean); invariant "all origins satisfy P" for every P closed under merging, by induction on the fuel (Verif/Lemmas/ResolveOrigins.lean), used with `FromSources` |
| C92 | the same | spec `SetAt`, `Leads` (Verif/Spec/SettingsA.lean): keys through objects, chains of substitutions; lookup restricted to a path gives the object back unchanged, then induction on the path of the setting (Verif/Lemmas/ResolveTarget.lean). Missing: paths through sections that are still to be merged with a substitution |
| C93 | the same, `Notes.fallbackA` | spec `SetIn`, `LeadsIn` (Verif/Spec/Seen.lean): the layer that sets a path, nothing in the way in the others; what `fallbackA` does along a path by induction on the path (Verif/Lemmas/SeenLemmas.lean), then over the layers, then C92. Missing: settings given by several layers that have substitutions or are sections |
| C94 | `Verif/Resolve.lean`, `Verif/ResolveNotes.lean` with both values of `allow_unresolved` | the two runs side by side, by induction on the nesting of the calls: as long as the strict one gives a value or the internal exception, the other one gives the same (Verif/Lemmas/Relaxed.lean); which exceptions are possible (RelaxedClass.lean); C25 and C24 for two steps; `Closed` predicates for what is left; C92 for single settings. Missing: what is left inside lists and concatenations and behind delayed merges; in lists it fails (below) |
| C95 | laws of edits (`Lemmas/EditAgain`, `EditAdded`, `EditCommute`): a second pass of `change_value_on_path` compared with the first, by mutual induction on the nodes; insertion of a setting does not depend on its value | `C95_remove_twice`, `C95_remove_commute` for all documents; setting twice for one-line second values; setting then removing, and reordering, for paths that are set (`SetAt`); witnesses where the laws fail |
| C96 | the config of an edited text (`Lemmas/EditRead`, `EditReadLoop`, `EditReadHas`, `EditReadAt`, `EditReadSeen`): `Alike p` relates values that are the same off `p`; it is kept by merging; mutual induction over `change_value_on_path` shows that the fields read before and after are alike; line numbers do not matter for reading; with C81/C50 for the text | `C96_removed_partial`, `C96_replaced_partial`, `C96_edits_partial` (any sequence of them), `C96_files_partial` (the same between `parse_string` calls, on a file system without substitutions, `Lemmas/TameFiles`): texts without substitutions, `+=` and lines that begin with a comma; included files must be read as objects without substitutions (`Tame`); nothing at the removed path if there are no includes and no object is part of a concatenation; replaced values on one line, read at the path (or hidden by a value that is no object above it; never mixed with old ones); witnesses where the code falls short |
| C97 | settings moved to an included file (`Lemmas/MoveFields`): the fields of an object read over any others put one layer over them (`Layer`, by induction with the associativity of merging), and so does the include of a file with these fields; without includes the includer does not matter | `C97_moved_partial` (texts, both directions), `C97_files_partial` (two files), `C97_nested_partial` (with includes among the moved settings), `C97_section_partial` (out of a section of any depth; `Lemmas/MoveInside`: `Eqv`, the same is seen at every path, is kept by merging); `C97_extension_violated`. Missing: settings with substitutions or `+=`, sections in lists and concatenations, `.json` files |
| C98 | `merge_three` and `similarity` in `Origin`: bounds on the similarity of neighbours, then the description of `merge_two` | `C98_neighbours_partial`; `C98_same_line_violated`. Missing: another source on the same line, descriptions that begin with `merge of `, more than three origins |
| C99 | `indent_text` by mutual induction over the nodes of the value: its tokens are the old ones with the whitespace behind every newline; then the loop of `change_value_on_path` with its index and the child before | `C99_text_partial`, `C99_document_partial`, `C99_indented_partial`; `C99_first_violated`. Missing: paths set several times, newlines between a key of the value and its value |

## What is modelled

| Lean file | C++ |
|-----------|-----|
| Chars, Base | config_util.cc; the "C" locale character classes |
| Token, Tokenizer | token.cc, tokens.cc, tokenizer.cc |
| Path, PathParser | path.cc, path_builder.cc, path_parser.cc |
| Node, DocParser | nodes/*.cc, config_document_parser.cc |
| DocEdit | simple_config_document.cc (`with_value_text`, `without_path`, `has_path`, `render`), config_node_object.cc, config_node_root.cc, config_node_complex_value.cc, config_node_field.cc, config_node_path.cc |
| Value, Concat | values/config_value.cc, simple_config_object.cc, simple_config_list.cc, config_concatenation.cc, config_delayed_merge(.object).cc, config_reference.cc: merging and concatenation |
| DocValue | simple_config_document.cc (`with_value`) |
| Access | config.cc getters, default_transformer.cc, config_object.cc, `with_value` / `without_path` / `with_only_path` / `at_path`, `entry_set`, `operator==` |
| Factory | config_value_factory.cc, `unwrapped`, list getters |
| Duration | config.cc durations |
| ConfigParser | config_parser.cc |
| Include | config_parse_options.cc, parseable.cc, simple_includer.cc, config_document_factory.cc |
| Origin | simple_config_origin.cc (line numbers, descriptions, comments, merging) |
| Resolve | resolve_context.cc, resolve_source.cc and `resolve_substitutions`, `replace_child` of all values |
| ResolveNotes | the same with origins, environment variables (config.cc 561-570) and the resolve of `include file(...)` |
| Render | `render` of all values without comments, config_render_options.cc |
| RenderNotes | `render` of all values with the comment and origin options |
| ParseNotes | config_parser.cc with origins and comments, merging and concatenation of values with origins |
| AccessNotes | `peek_path` on values with origins |
| ProgOptions | inc/hocon/program_options.hpp |
| FunctionalList | inc/hocon/functional_list.hpp |
| Includers | simple_includer.cc with fallbacks and application classes, `fixup_options` |
| IncludeNotes | parseable.cc, simple_includer.cc, config.cc `parse_string` and `parse_file_any_syntax` with origins |

Not modelled: descriptions inside exceptions; `relativized` beyond the fact that objects do
not reimplement it; `config_includer` classes written by the application (a parameter in Verif/Includers.lean);
`config::check_valid` apart from always throwing; `parseable_resources`, `parseable_not_found`; memory
management; the memo table of `resolve_context` (see the head of `Verif/Resolve.lean`); hash map iteration
order (a map is a list of fields; C61 shows rendering does not depend on it, the other theorems hold for
every list).

The reading of the C++ was cross-checked by evaluating the model on inputs of the project's own unit tests in
`/repo/lib/tests` and comparing with the results stated there; the code itself was never run. Evaluated:
`tokenizer_test.cc`, `test_utils.cc` (the lists of valid and invalid JSON and HOCON texts, with their white space
variations), `conf_parser_test.cc`, `concatenation_test.cc`, `config_substitution_test.cc`, `path_test.cc`,
`config_document_tests.cc`, `config_document_parser_test.cc` and the getters, files and durations of
`config_test.cc`. Agreement is complete but for two tests whose outcome the model leaves open: the escape `\u0000`
(the conversion of code points is a parameter), and the durations of 2^63-1 days, where the tests expect an
exception and the model says undefined (the multiplication overflows a signed integer before the sign is
checked). `Verif/Conformance.lean` keeps a part of these checks, so that a change of the model which breaks them
fails to build. They are tests of the model; no property rests on them.

## Where the code does not do what the property says

Each item is a theorem (a witness or a general statement) of the property named.

* C01, C48: a numeral outside the int64 range with an exponent (`1e30`) is converted to int64 by an
  undefined cast.
* C02: the fast path parser trims newlines, the full parser rejects them.
* C05, C60: bytes >= 0x80 and unescapable control characters are rejected inside quoted strings.
* C06, C10: a blank before `}` in `${a }` is lost; a NUL inside `\u` cuts the text; the `)` of
  `include file("x")` is not kept in the document.
* C08: a whitespace token before a newline carries the next line number; a newline swallowed by `\u` is
  not counted.
* C11: JSON mode accepts triple-quoted strings.
* C13: in JSON documents a path text with `//` is read differently by `with_value_text` and `has_path`: for the former
  it is a path, the latter throws. C12 and C13 therefore speak of path texts that `has_path` accepts.
* C17: grouping of fallbacks matters for unresolved values (one grouping throws).
* C23: an empty key is dropped by the renderer together with its colon; control characters are written raw.
* C63: a list at the root renders its objects without braces (`[{a:1}]` as `[a=1]`), which cannot be read.
* C66: `a=[p]`, `a+=q`, `a+=r`, `a+=s` makes `resolve()` throw `bug_or_broken_exception` ("A delayed merge should not contain another one"): `with_fallback` on a delayed merge nests it instead of extending its stack, and the constructor that should reject this tests the parameter it has moved from (config_delayed_merge.cc 21-29). Two appended values work; three or more never resolve (`C66_appends_violated`, `C66_text_violated`).
* C25, C33: `with_value` does not update the resolve status, never replaces an existing key and, for a nested
  path, writes into the wrong object.
* C27: cycle markers are lost through a moved-from context, so some cyclic configs make `resolve` recurse
  forever.
* C31: `get_int`/`get_long` drop the fraction of doubles; out of range is undefined.
* C34: `without_path` loses the siblings of the first key. C35: `with_only_path` is empty or undefined.
* C37: object equality only looks at the last field visited, is not symmetric and can throw `out_of_range`; two concatenations are compared by their last pieces (`C37_concat_violated`).
* C38, C52: durations overflow with undefined behaviour, refuse small negative amounts and refuse
  whole-valued decimals.
* C41: unquoted text after a list or object is dropped; an empty string in a concatenation throws.
* C42: `parse_string` ignores its options. C43: the include depth guard never fires. C44: `.conf` alone with
  `allow_missing = false` throws; a malformed `.conf` is ignored; missing files read as empty.
* C46: a nested `+=` refers to the path of the outermost field.
* C48: a malformed key dereferences a null origin; a bad `\u` escape reads an uninitialised variable.
* C49, C50: `with_value_text` can loop forever (multi-line value, no indentation) and can write a doubled
  comma; a section written without a separator (`a { b : 1 }`) that is set to a value is written as `a x`, which no
  longer parses. A value text with a slash at its end that is put directly before a `//` comment loses the slash to the comment.
* C51: missing and wrong-type exceptions are sliced to `config_exception`.
* C53: the merged origin of three lines starts at the wrong line. C55: `with_comments({})` does not clear.
* C54: list getters do not convert; `get_config_list` always throws; `get_object_list` throws a pointer.
* C57, C58: included substitutions are not relativized; an include without extension is not relative to the
  including file.
* C67: a comment that contains a newline (set through `with_comments`) is written without a second comment
  sign, so its second line becomes a setting.
* C68: `a { b { d = 1 } }` followed by `a { b = ${x}, b { c = 1 } }` is refused, although each is accepted on its
  own: a delayed merge object cannot be merged over an object.
* C69: `with_value` copies the status, so a config to which a substitution was added says it is resolved.
* C70: the blank in `${a} ${b}` is rendered as the string `" "`, so two substituted lists can no longer be joined
  after reading the text again; a stack of values inside a stack is rendered as `"b":${x},${y}`, which is refused.
* C72: a comment behind a setting that repeats the only comment above it is dropped; a comment above `a.b = 1` is
  attached to `a` too (`with_comments({})` does not clear); newlines between a key and its value are not counted,
  so later sections and lists get wrong lines; a comment behind the last brace is lost unless a newline follows; a
  comment above an `include` goes to the next setting.
* C73: a source whose description begins with `merge of ` loses these words when two of its values are merged
  (`C73_description_violated`).
* `without_path` leaves the comments above and behind the removed setting; with a comment behind it they all
  become comments of the next setting (`C75_comment_moves_violated`).
* C76: a setting added to a document that ends in a comment without a newline is written behind the comment on the same line and
  becomes part of it; `has_path` on the edited document says it is there, parsing its text does not (`C76_comment_swallows_violated`).
* C78: three kinds of paths make a JSON document unreadable: a path through a value that is not an object adds a second member of the same
  name (`C78_through_scalar_violated`), a quoted element before an unquoted one is written as `"a"""` (`C78_mixed_path_violated`), and
  an unquoted element with a blank is written as several strings (`C78_blank_in_path_violated`).
* C79: `with_value` renders with comments, so a value with a comment inside cannot be set in a JSON document: the text is refused by
  the JSON tokenizer (`C79_comment_violated`).
* C80: only a comma directly behind the member, or behind it and blanks on the same line, is removed with it. If the comma begins
  the next line, removing the first member leaves `{ , "b":2}`, which no parser of the library accepts (`C80_comma_line_violated`).
* C81: the same in HOCON syntax: removing `a` from `a:1\n,b:2` leaves `\n,b:2`, which is refused (`C81_comma_violated`). All other
  layouts are covered; the theorems are called partial for this reason.
* C83: a number with a fraction whose amount is a whole number of seconds (`1.5 minutes`, `2.0 s`) is refused, and so
  are negative amounts of which exactly one of seconds and result is cut to zero (`C83_whole_refused`, `C83_negative_refused`).
* C84: `removed1` goes on with `removed`: if the front is another element, all occurrences go (`C84_removed1_all`).
* C85: `parse_string` hands the include statements of the text to the default includer although the options have another
  one; those of included files reach the includer of the options (`C85_string_default`, `C85_string_violated`). A fallback
  added to the includer of an include context is ignored (`C85_proxy_ignores`).
* C86: the values of an included file do not name it: `clear_for_include` sets the description to the empty text instead
  of removing it, so their origins have an empty description and the line only (`C86_included_violated`).
* C88: with origins, which `config_render_options` shows by default, the description of the origin is read back as a comment
  of the setting, so every round of writing and reading adds comments (`C88_origins_violated`).
* C95: a value of several lines is indented otherwise when it replaces the value of a setting just added than when it is
  added itself (`C95_multiline_violated`); adding `a.b` and removing it leaves an empty object (`C95_add_remove_violated`).
* C96: a setting inside objects that are written side by side (`a : {b : 1} {c : 2}`) is not found by the editor, so removing it
  changes nothing and it can still be read (`C96_concat_violated`); the value of a setting that a later one hides is replaced
  where it stands, and the config does not show it (`C96_hidden_violated`); a path that an included file sets is still there
  after its removal from the document (`C96_include_violated`).
* C97: the file of an include without extension (`include "x"`) is not looked for in the directory of the including file,
  and when it is not found its settings are silently missing (`C97_extension_violated`).
* C98: the comment in `similarity` says that lines count only if the descriptions agree, but they are always counted; an origin
  of another file on the same line is merged first and the file of the other two is named twice (`C98_same_line_violated`).
* C99: the value of the first setting of a document without braces is not indented though the setting is, because the
  child at index 0 is never taken for the whitespace before a setting (`C99_first_violated`).

Further observations without a property of their own: `path` length of the empty path is 1;
`sub_path(a, b)` cannot reach the end; `starts_with` on an empty receiver is undefined; the comparator given to
`std::sort` in simple_config_object.cc is not irreflexive; `at_root` is passed to list elements, so objects in a
root list lose their braces when rendered as HOCON; doubles made through the API are written with six decimals;
a list whose first element is an optional substitution without value and whose second is any substitution
makes `resolve` throw (C89; `Spec.Steady` excludes these lists from C65); with `allow_unresolved` it stays in the list (C94);
`check_valid` always throws; null inside a list becomes an option with the text `null`, like the string.

## Trusted base

* Lean's kernel.
* The axioms `propext`, `Classical.choice` and `Quot.sound` at most; the table below gives them per theorem
  (`#print axioms`). No axiom is declared in the project, and there is no `sorry`, `admit`, `native_decide`,
  `bv_decide`, `implemented_by` or `unsafe`.
* The reading of the C++ in the model: each definition cites the lines it models and says where it
  simplifies. Hypotheses about external functions (`lexical_cast`, `sscanf`, ...) are written in the theorems.

### Axioms per theorem

* **none**: `ParseOptions.C42_setters`, `Includers.C85_proxy_ignores`, `Origin.C45_order`, `Origin.C55_line_number`, `Origin.C55_comments_partial`, `Origin.C55_comments_not_cleared`, `PathM.C03_length_empty`, `PathM.C03_first_remainder`, `Resolve.C42_resolve_options`
* **propext**: `CommentProps.C71_lookup`, `CommentProps.C72_repeated_comment_violated`, `CommentProps.C72_path_comment_violated`, `CommentProps.C72_newline_not_counted`, `CommentProps.C72_last_comment_violated`, `CommentProps.C72_include_comment_violated`, `Value.C41_empty_throws`, `Value.C41_single`, `DocEdit.C13_json_comment_path`, `DocEdit.C49_set_diverges`, `DocEdit.C50_reparse_fails`, `DocEdit.C50_section_violated`, `DocParser.C10_include_parenthesis_lost`, `DocParser.C11_triple_quotes_accepted`, `DocParser.C48_bad_key_undefined`, `DocEdit.C95_multiline_violated`, `DocEdit.C95_add_remove_violated`, `DocEdit.C95_add_order`, `EditRead.C96_concat_violated`, `EditRead.C96_hidden_violated`, `EditRead.C96_include_violated`, `Value.C54_no_conversion`, `Value.C29_unresolved`, `Value.C51_never_missing_or_wrong_type`, `Value.C31_witness`, `ParseOptions.C42_add_includer`, `Files.C42_options_ignored`, `Files.C42_json_accepts_conf`, `Includers.C85_cycle`, `Includers.C85_string_violated`, `DocEdit.C99_first_violated`, `JsonAddProps.C78_through_scalar_violated`, `JsonAddProps.C78_mixed_path_violated`, `JsonAddProps.C78_blank_in_path_violated`, `JsonProps.C60_big_integer`, `JsonProps.C60_non_ascii`, `JsonRemoveProps.C80_comma_line_violated`, `LinesAddProps.C76_comment_swallows_violated`, `LinesRemoveProps.C75_comment_moves_violated`, `EditRead.C97_extension_violated`, `NamedProps.C90_include_violated`, `Value.C33_existing_key_kept`, `Value.C33_not_retrievable`, `Value.C34_witness`, `Value.C35_witness`, `Origin.C45_empty`, `Origin.C45_missing_origin_undefined`, `Origin.C55_append`, `Origin.C55_prepend`, `PathParser.C02_newline_disagrees`, `PathParser.C01_large_numeral_ub`, `PathM.C03_prepend`, `PathM.C03_prepend_assoc`, `PathM.C03_length`, `PathM.C03_last`, `PathM.C03_parent`, `PathM.C03_parent_last`, `PathM.C03_subPath`, `PathM.C03_beq`, `PathM.C03_ofElements`, `PathM.C03_concatPaths`, `PathM.C03_builder`, `PositionProps.C73_description_violated`, `DocEdit.C81_comma_violated`, `RenderProps.C23_empty_key_lost`, `RenderProps.C23_control_character`, `RenderProps.C63_root_list_unreadable`, `DocEdit.C50_slash_violated`, `StatusProps.C69_with_value_violated`, `Tokenizer.C05_non_ascii_rejected`, `Tokenizer.C06_blank_in_substitution_lost`, `Tokenizer.C06_nul_in_escape_lost`, `Tokenizer.C08_blank_before_newline_off_by_one`, `Tokenizer.C08_newline_in_escape_not_counted`
* **propext, Quot.sound**: `CommentProps.C72_unique`, `Value.C41_scalars_partial`, `Value.C41_lists`, `Value.C41_mixture_throws_partial`, `Value.C41_text_after_list_dropped`, `ConfigParser.C41_source_text`, `ConfigParser.C41_text_after_list_document`, `ConfigParser.C22_contributes`, `ConfigParser.C46_top_partial`, `ConfigParser.C46_top_equal_partial`, `ConfigParser.C46_refers_to_outermost`, `ConfigParser.C46_nested_wrong`, `ConfigParser.C46_in_list_throws`, `DocParser.C48_bad_escape_undefined`, `Duration.C39_units`, `Duration.C52_whole_fraction_refused`, `Value.C30_distinct`, `Value.C30_entry_set`, `Value.C30_unique`, `Value.C37_unequal_equal`, `Value.C37_concat_violated`, `Value.C37_big_double_undefined`, `FList.C84_front`, `FList.C84_take`, `FList.C84_removed`, `FList.C84_removed1_all`, `FList.C84_member`, `FList.C84_combinators`, `FList.C84_sets`, `FList.C84_iterate`, `Value.C40_roundtrip`, `Value.C40_plain`, `Value.C40_unwrapped_total`, `Value.C40_unresolved_throws`, `Value.C54_bool_list`, `Value.C54_int_list_partial`, `Value.C54_long_list_partial`, `Value.C54_double_list_partial`, `Value.C54_string_list_partial`, `Value.C54_object_list_partial`, `Value.C54_object_list_foreign`, `Value.C54_config_list_unusable`, `Value.C54_config_list_partial`, `Value.C29_has_path`, `Value.C29_has_path_or_null`, `Value.C29_get_is_null`, `Value.C51_missing_sliced`, `Value.C51_null_partial`, `Value.C32_get_string`, `Value.C32_get_bool`, `Value.C32_get_object`, `Value.C32_get_list`, `Value.C31_fraction_dropped`, `Value.C31_out_of_range_undefined`, `Files.C42_document_file_syntax`, `Files.C43_cycle_diverges`, `Files.C44_json_only_partial`, `Files.C44_conf_only_partial`, `Files.C44_default_missing`, `Files.C44_foreign_comes_out`, `Files.C44_conf_alone_refused`, `Files.C44_malformed_conf_ignored`, `Files.C44_missing_accepted`, `Files.C57_root_partial`, `Files.C57_not_relativized`, `Files.C58_relative_partial`, `Files.C58_basename_not_relative`, `Includers.C85_application`, `Includers.C85_file`, `Includers.C85_file_answered`, `Includers.C85_file_fallback`, `Includers.C85_everywhere`, `Includers.C85_default`, `Includers.C85_string_default`, `DocEdit.C99_indented_partial`, `ListSubstProps.C89_witness_violated`, `Value.C16_total`, `Value.C16_precedence`, `Value.C17_assoc`, `Value.C17_unresolved_throws`, `Value.C17_unresolved_nested`, `Value.C18_empty_right`, `Value.C18_empty_left`, `Value.C19_keys`, `Value.C19_keys_nodup`, `Value.C19_closed`, `Value.C20_chain`, `Value.C20_nested`, `NamedProps.C90_with_fallback`, `Value.C36_at_path`, `Value.C36_at_key`, `Value.C33_new_key_partial`, `Value.C33_wrong_object`, `Value.C33_status_stale`, `Value.C33_total`, `Value.C34_removed`, `Value.C34_frame_partial`, `Value.C34_siblings_lost`, `Value.C35_always_empty_or_undefined`, `Value.C35_nothing_else_partial`, `Origin.C45_comments`, `Origin.C53_first_line_partial`, `Origin.C53_unknown_line_partial`, `Origin.C53_first_line_lost`, `Origin.C98_neighbours_partial`, `Origin.C98_same_line_violated`, `PathParser.C04_accepted_paths`, `PathM.C03_subPath_all`, `PathM.C03_subPathRange`, `PathM.C03_startsWith`, `PathM.C03_startsWith_empty_ub`, `PositionProps.C73_lookup`, `ProgOptionsProps.C82_options`, `ProgOptionsProps.C82_refused`, `RelaxedProps.C94_same`, `RelaxedProps.C94_never_missing`, `RelaxedProps.C94_optional_violated`, `RenderProps.C47_list`, `ResolveOriginProps.C91_origins`, `ResolveOriginProps.C90_resolve_violated`, `Resolve.C24_resolved_noop`, `Resolve.C25_stale_status`, `Resolve.C27_error_class_partial`, `Resolve.C27_diverges`, `Resolve.C27_diverges_texts`, `C65_each_setting`, `C65_append`, `C65_first_append`, `C65_override`, `C66_two_appends_partial`, `C66_third_append_violated`, `SourceProps.C86_included_violated`, `SubstTextProps.C68_object_over_several_violated`, `SubstTextProps.C66_appends_violated`, `UnresolvedProps.C70_blank_violated`, `UnresolvedProps.C70_nested_violated`
* **propext, Classical.choice, Quot.sound**: `CommentProps.C71_parse`, `CommentProps.C71_source_irrelevant`, `CommentProps.C72_comments_partial`, `Value.C41_objects`, `ConfigParser.C21_last_wins`, `ConfigParser.C21_overwrites`, `ConfigParser.C21_json_distinct`, `ConfigParser.C22_dotted_is_nested`, `DocEdit.C12_removed`, `DocEdit.C12_absent_unchanged`, `DocEdit.C12_total`, `DocEdit.C13_set_then_has`, `DocEdit.C15_remove_frame`, `DocEdit.C15_set_frame`, `DocEdit.C14_replace_only_value`, `DocEdit.C49_set_terminates_partial`, `DocEdit.C49_remove_terminates`, `DocParser.C10_nothing_invented`, `DocParser.C10_render_parse_partial`, `DocParser.C11_json_mode_exact`, `DocParser.C11_no_extensions`, `DocParser.C48_parse_terminates`, `DocParser.C48_json_defined_partial`, `DocParser.C48_conf_defined_partial`, `DocParser.C48_large_numeral_undefined`, `Duration.C39_spelling_irrelevant`, `Duration.C39_unknown_unit`, `Duration.C38_exact_partial`, `Duration.C38_overflow_undefined`, `Duration.C38_negative_refused`, `DocEdit.C95_remove_twice`, `DocEdit.C95_remove_commute`, `DocEdit.C95_set_twice_partial`, `DocEdit.C95_set_remove_partial`, `DocEdit.C95_set_commute_partial`, `DocEdit.C95_set_remove_commute_partial`, `EditRead.C96_removed_partial`, `EditRead.C96_replaced_partial`, `EditRead.C96_edits_partial`, `EditRead.C96_files_partial`, `DocEdit.C50_set_reparses_partial`, `DocEdit.C50_changes_reparse_partial`, `Value.C30_get_value`, `Value.C37_same_equal_partial`, `Value.C37_narrow_partial`, `FList.C84_inserted`, `FList.C84_removed1_partial`, `Value.C40_get_any_ref`, `Duration.C83_fraction_partial`, `Duration.C83_whole_refused`, `Duration.C83_negative_refused`, `Duration.C83_not_a_number`, `Value.C29_get_value`, `Value.C29_agree`, `Value.C31_get_long_partial`, `Value.C31_get_int_partial`, `Value.C31_not_a_number`, `HoconProps.C62_hocon_accepted`, `HoconProps.C62_fields`, `EditRead.C56_files`, `Files.C42_document_syntax_partial`, `Files.C43_acyclic_partial`, `Files.C59_values_defined`, `Files.C44_both_partial`, `ConfigParser.C56_include_is_layer`, `Includers.C85_fallback_partial`, `DocEdit.C99_document_partial`, `DocEdit.C99_text_partial`, `JsonAddProps.C78_add_json_partial`, `JsonEditProps.C77_set_json`, `JsonProps.C60_json_accepted`, `JsonRemoveProps.C80_remove_json_partial`, `LayerProps.C87_earlier_is_fallback`, `LayerProps.C87_many`, `LinesAddProps.C76_add_partial`, `LinesEditProps.C74_set_partial`, `LinesRemoveProps.C75_remove_partial`, `ListSubstProps.C89_left_out_partial`, `ListSubstProps.C89_if_returned_partial`, `ListSubstProps.C89_throws_violated`, `Value.C18_idempotent`, `EditRead.C97_moved_partial`, `EditRead.C97_files_partial`, `EditRead.C97_nested_partial`, `EditRead.C97_section_partial`, `NamedProps.C90_layers_partial`, `NamedProps.C90_named`, `NotesProps.C67_without_notes`, `NotesProps.C67_notes_roundtrip_partial`, `NotesProps.C67_newline_comment_violated`, `Value.C36_get_value`, `Value.C33_get_value_partial`, `PathParser.C02_fast_agrees_partial`, `PathParser.C01_render_parse_partial`, `PathM.C03_subPathRange_end`, `PositionProps.C73_positions_partial`, `PositionProps.C73_comments`, `ProgOptionsProps.C82_unique`, `ProgOptionsProps.C82_get_string`, `ProgOptionsProps.C82_parse_string`, `ProgOptionsProps.C82_parse_file`, `ProgOptionsProps.C82_written`, `RelaxedProps.C94_two_steps`, `RelaxedProps.C94_left`, `RelaxedProps.C94_stays_partial`, `RelaxedProps.C94_optional_partial`, `RelaxedProps.C94_text_partial`, `DocEdit.C81_remove_reparses_partial`, `DocEdit.C81_removals_reparse_partial`, `DocEdit.C81_read_back_partial`, `RenderProps.C23_json_roundtrip`, `RenderProps.C23_parsed_roundtrip`, `RenderProps.C47_object`, `RenderProps.C61_order_irrelevant`, `RenderProps.C63_hocon_roundtrip`, `RenderProps.C63_parsed_roundtrip`, `DocEdit.C50_replace_reparses_partial`, `DocEdit.C50_edits_reparse_partial`, `ResolveOriginProps.C91_values`, `ResolveOriginProps.C91_string`, `ResolveOriginProps.C91_comments`, `ResolveOriginProps.C92_resolve_with_partial`, `ResolveOriginProps.C92_plain_kept`, `ResolveOriginProps.C92_section_kept`, `ResolveOriginProps.C92_list_kept`, `ResolveOriginProps.C92_root_kept`, `ResolveOriginProps.C92_string_partial`, `Resolve.C25_no_substitution_left_partial`, `Resolve.C25_parsed_partial`, `Resolve.C26_field_value_partial`, `Resolve.C26_rest_partial`, `Resolve.C26_meaning_partial`, `Resolve.C27_required_cycle_partial`, `Resolve.C27_terminates_partial`, `Resolve.C28_missing_required_partial`, `Resolve.C28_missing_path_partial`, `Resolve.C28_missing_key_partial`, `SeenProps.C93_set`, `SeenProps.C93_resolve_partial`, `SeenProps.C93_kept`, `SeenProps.C93_texts_partial`, `Settings.C64_written_is_read`, `Settings.C64_unwritten_is_absent`, `Settings.C64_keys`, `C65_resolves_partial`, `C65_unique`, `C26_merged_partial`, `ShownProps.C88_read_back_partial`, `ShownProps.C88_stable_partial`, `ShownProps.C88_origins_violated`, `SourceProps.C86_string_partial`, `SourceProps.C86_file_partial`, `SourceProps.C86_file_values`, `SourceProps.C86_string_values`, `StatusProps.C69_parsed_partial`, `StatusProps.C69_merged_partial`, `StatusProps.C69_at_key_partial`, `StatusProps.C69_resolved_partial`, `StatusProps.C69_resolve_options_partial`, `StatusProps.C69_entry_points_partial`, `SubstTextProps.C68_reads_partial`, `SubstTextProps.C68_reads_and_resolves_partial`, `SubstTextProps.C66_text_violated`, `Tokenizer.C05_render_then_token`, `Tokenizer.C05_render_tokenize`, `Tokenizer.C06_no_invention`, `Tokenizer.C06_tokens_cover_input_partial`, `Tokenizer.C07_tokenize_total`, `Tokenizer.C08_line_numbers_partial`, `Tokenizer.C09_blanks_insignificant`, `UnresolvedProps.C70_reread_partial`, `UnresolvedProps.C70_parsed_partial`, `ValueProps.C79_set_partial`, `ValueProps.C79_add_partial`, `ValueProps.C79_set_lines_partial`, `ValueProps.C79_null`, `ValueProps.C79_comment_violated`
