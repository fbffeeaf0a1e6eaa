# Formal model of leotrs/rsm in Lean 4

## What is here

* `properties.jsonl` — the properties (C01, C02, ...), in terms of the API.
* `lean/Verif/Model/*` — the executable model, function by function, each definition citing `/repo`.
* `lean/Verif/Spec/*` — small independent specifications used in theorem statements.
* `lean/Verif/Lemmas/*` — helper lemmas.
* `lean/Verif/Props/*` — the property theorems and, beside each, an `example` that its hypotheses are met.
* `MANIFEST.json` — property -> theorems.
* `seeded/LOG.jsonl` — wrong programs tried against the theorems.

## How the code is modelled

**Objects.** Python nodes are mutable objects with identity. The model is a heap
(`Heap`): object references are natural numbers, a node record holds the class tag and all
attributes, `parent` is an optional reference and `children` a list of references. Aliasing,
cycles, double parents and half-done edits are therefore expressible. Classes are an
enumeration with the single-inheritance table of `nodes.py`.

**Exceptions.** Every function that can raise returns `Res`: either a value and the new state
or an exception and the state *at the moment of raising*. Partial effects of failing calls are kept.

**Loops.** `for x in tree.traverse(...)` is the generator's stack machine interleaved with the
loop body, so that edits made by the body are seen by the traversal exactly as in Python (the
children of a node are read after the body has run on it). Loops that may diverge take a
fuel argument; running out is the distinguished outcome `PyErr.outOfFuel`. Theorems state that
for enough fuel (an explicit bound) the outcome is never `outOfFuel`, or, for real
nontermination, that it is `outOfFuel` for every fuel.

**Trees.** `IsTree h p r t` says that the part of the heap below `r` is the finite tree `t`
with parent `p`; it is the well-formedness hypothesis of most theorems. It is shown to be
established by the constructors and preserved by the API (C02).

**Strings** are lists of characters (`Str`). Python's white space is the explicit set of code
points for which `str.isspace` holds.

## Trusted base

Lean 4.33 kernel; the axioms `propext`, `Classical.choice`, `Quot.sound` at most (`lake build`
prints `#print axioms` for none of them; see `vcheck`); and the reading of `/repo` recorded in
the comments of `Verif/Model/*`. No axiom is added, no `sorry`, no `native_decide`, no `bv_decide`.

### What is modelled

| file | modelled (in `lean/Verif/Model/`) | not modelled |
|------|-----------------------------------|--------------|
| `nodes.py` | all node classes as a table (bases, `classreftext`, `possible_parents`, meta keys, autonumber/ scope data), all attributes, the whole tree API, `traverse`, `sexp`, search, equality, `full_number`, `reftext` (`Cls`, `Nodes`, `NodeApi`), `__repr__` (`Repr`) | in `__repr__`: `textwrap.shorten` and the printable characters beyond ASCII are parameters, and a chain of references longer than the recursion limit shows nothing instead of raising |
| `transformer.py` | every pass and `transform` (`Transformer`) | log messages |
| `translator.py` | both translators, all commands, all visit and leave methods (`Translator`) | pygments: a parameter from (code, language) to a string |
| `tsparser.py` | `TSParser.parse`, `_abstractify`, the meta and bibliography parsers (`Parser`), `_normalize_text` (`Normalize`) | tree-sitter and the RSM grammar: the concrete syntax tree is arbitrary; printing of trees at level DEBUG |
| `util.py` | `EscapedString` (`Util`) | |
| `app.py`, `cli.py` | pipeline, applications, `render`/`lint`/`make`, entry points and what they print (`App`) | `argparse`, `livereload`; the stages (read, parse, transform, translate, build, write) are arbitrary functions there, and the models of this table in `Program` |
| `rsmlogger.py`, `linter.py` | levels, handlers, filters, the gather handler, the linter (`Logger`, `Linter`) | time stamps; the text of messages beyond what is needed |
| `builder.py`, `writer.py` | both builders; the two regular expressions as scanners; files as a finite map (`Builder`); writing them to the current directory (`Program`) | the `fs` library beyond that, a disk that refuses to be written to, the JavaScript in `static/` |
| `reader.py` | reading a file, as a map from paths to texts (`Program`) | path names beyond equality, encodings |

Not modelled at all: the operating system, documentation tooling, `manuscript.py` (a thin data class), `tags.py` (constants that nothing imports).

### Simplifications

* Python's integers are `Nat`/`Int`, its strings lists of Unicode scalar values.
* A `set` iterated in unspecified order is an arbitrary list without repetitions (C32).
* Recursion depth and memory are unlimited: `RecursionError` and `MemoryError` do not occur.
* Attributes created on the fly by the translator (`mustclosep`, `followed_by_dot`) are fields with the value they are tested against.
* The parser works on an arbitrary concrete syntax tree (`Cst`). What tree-sitter makes of a text is not modelled; the theorems assume at most that the root is the only `source_file` node.
* Attributes are typed in the model. A meta or bibliography value for an attribute that has another type there leaves the model (`otherError`, see `setAttr`).
* The exception classes are an enumeration; messages are not modelled, except where a property is about them.

## Plan per property

| id | what is modelled | how it is proved |
|----|------------------|------------------|
| C01 | node API on the heap, histories as lists of operations | invariant by induction over operations, failing ones included |
| C02 | same | invariant (forest predicate) by induction over disciplined operations; four `decide` witnesses for the failures |
| C03 | same | exact post-state of each call |
| C04 | same | error branch leaves heap equal; witnesses for the non-atomic branches |
| C05 | parent setter and class table | invariant by induction over operations |
| C06 | generator stack machine | equality with a recursive preorder by induction on the tree |
| C07 | `get_child_by_id` after `assign_node_ids` | corollary of C06 and C29 |
| C08 | the stack printer of `sexp` | equality with a recursive printer; reader/printer round trip by induction |
| C09 | sibling functions | list lemmas on the children list |
| C10 | search functions | list lemmas; induction along the ancestor chain |
| C11 | `__eq__` attribute list | tree argument: a descendant has a different parent; witnesses |
| C12 | `full_number` recursion up the tree | induction along the ancestor chain |
| C13 | class table and `newmetakeys` | case analysis over the finite table |
| C14 | `collect_labels` | loop = fold over document order; invariant on the fold |
| C15 | composition of passes | C14 + frame properties of every later pass |
| C16-C19 | `resolve_pending_references` | loop invariant on the partially rewritten tree; the count of a `:prev:` is the number that `Spec/Numeral` reads off the text (`C19_count`) |
| C20-C21 | `add_necessary_subproofs` | induction on the tree with the self-modifying traversal |
| C22-C25 | `autonumber_nodes` | fold invariant: counters = declarative counts |
| C26 | `make_toc` | induction over the section forest with the cursor as part of the invariant |
| C27 | `add_keywords_to_constructs` | fold |
| C28 | `add_handrail_depth` | double fold; counting |
| C29 | `assign_node_ids` | fold |
| C30 | two runs of `transform` | fold with non-empty initial index |
| C31 | composition | frame properties |
| C32-C36 | `EscapedString` | induction on strings; explicit nontermination for `index` |
| C37 | output of both translators read by a tag scanner (`Spec/Html`, `Spec/Balance`) | every command is a transformer of the stack of open elements; induction on the tree with the marks `mustclosep` and `followed_by_dot` as ghost state |
| C38-C43 | `Translator` and commands as a stack machine over the heap | big-step lemma by induction on the tree |
| C44-C47 | `app.py` | case analysis, list induction over tasks |
| C48-C49, C53 | `rsmlogger.py` | invariants over histories |
| C50 | `linter.py` | loop = fold over document order |
| C51-C52, C57-C62 | `_normalize_text` with its self-modifying traversal | one step of the loop body computed exactly on labelled trees (`Norm`), the loop by induction on a cost that counts the nodes still to be added; the properties by induction on `Norm` |
| C63-C70 | `TSParser.parse` on arbitrary concrete syntax trees | the stack loop equals a recursive evaluation `ev` (`ParserRun`, `ParserEval`); the heap it leaves is described by items (`Built`, `ParserState`); `ev` agrees with the declarative reading of the tree (`Spec/Parser`: parts, reads, outline, bibliographies, warnings) by induction on the tree (`ParserSay2`); normalisation keeps all of it (`ParserFinal`, `ParserDone`); success for well-formed sources (`Spec/Source`) by the same induction (`ParserLegal`) |
| C71-C72 | words: `Spec/Words` (pieces, white space, words of a node before and after normalisation) and `Spec/Prose` (what a source is to show, with blanks for line breaks) | equality up to words as a congruence on flows (`SameF`), by induction on `Norm` (`NormWords`); the parser's items show the flow of the parts by induction on the tree (`ParserWords`). At the root itself, where the bibliographies stand, only the sequence of pieces is stated unless there is no bibliography |
| C73 | verbatim contents: `Spec/Verbatim` (of a document) and `verbs` in `Spec/Prose` (of a source) | functions on labelled trees that ignore texts and keywords are unchanged by merging, stripping and keywords (`Ignores`), a lone verbatim text is only stripped (`NormVerb`); the parser's items by the induction of `ParserWords`. Leading white space of the first line of a code block is lost: that is what the code does, and the statement says so |
| C74 | `transform` followed by `translate` of either translator; ids and links as texts on the page (`Html.HasId`, `Html.HasLink`) | every node of the tree is visited once and the text of its command is part of the output (`TrLinks`); every visit method of the classes in `anchored` opens a tag with the label as id (`TrAnchors`); where references and targets are after all passes (`LinkRun`). Links back: only for the plain translator |
| C75 | all passes of `transform`; `TransformEnds` in `Spec/Transform` lists the ways to end and their precedence | each pass returns or raises for a stated reason (C10, C21, C23, C25 and the lemmas under them); the reasons are stated of the document as given, so they are carried over the passes before (`MapCls`, `lettersRunOut_same`) (`Lemmas/Outcome`). Both directions: the description leaves one outcome only |
| C76-C77 | `TSParser.parse`, `transform` and `translate` one after the other; `Spec/Pipeline` says what a source must be like (no label on a syntax error; well-nested sections if it has a table of contents) | what stands in a parsed manuscript comes from a part of the source or was made by the parser (`ParserOrigin`, `ParserGiven`), so the hypotheses of C75, C31 and C39 follow from the source (`ParserInput`); C64, C31 and C39 compose |
| C78 | both translators on arbitrary documents; `Obstacle` in `Spec/Obstacle` lists, per kind of node, what makes it impossible to write and the exception | a visit raises exactly if its node has an obstacle (`TrFormat` for `str.format`, `TrEnds`, `TrVisitEnds`); leaving never raises (`TrRunEnds`); induction over the tree (`TrAllEnds`). Hypotheses: the targets of references are in the document or stand alone, and no display formula stands directly in a step (as after `transform`); without the latter it is false (`C78_step`) |
| C79 | parse, transform, translate; `Spec/Presentable` says what an author has to see to (of a document, `Presentable`; of a source, `PageSource` and, in `Spec/Structure`, `Structured`: citations of entries, references to earlier steps that find them, subproofs that are last in their steps, at most 26 of each kind after an appendix marker) | what the passes leave of a parsed document meets the hypotheses of C78 (`ReadyRun`, `Presentable`): references lead to nodes of the document or to unknown entries, steps are wrapped; no obstacle is left; the conditions follow from the source by the origin of every node (`ParserPage`); that subproofs stay last by following them through the parser and normalisation (`Structure`), that references find their steps by induction on tree and outline, that letters suffice by counting (`StructureRun`) |
| C80 | the plain translator, all of it; `Spec/Render` is the specification: a recursive description of the page of a document tree, without commands, deferred commands, stack or notes on nodes; full numbers by `FullNumber`, texts of references by the relation `RefText` | refinement: every visit method writes `opening` and pushes what `closing` needs (`RenderVisit`, `RenderVisit2`, `RenderVisit3`), every leave method writes `closing` (`RenderLeave`), and by mutual induction on trees and forests, with an invariant on types and on the notes that paragraphs get (`RenderTree`), the translation of a tree writes `Render.page`; for what comes from the parser and transformer by `Transformed` (C79) |
| C81 | the translator with handrails, all of it; `Spec/Rails` is the specification: a recursive description of the page, on top of `Spec/Render`, without commands, batches, regular expressions or notes on nodes | refinement, as for C80: visit methods in `RailsVisit`, `RailsVisit2`, `RailsVisit3` (bibliography entries: what the regular expression for the link finds), leave methods in `RailsLeave`, mutual induction on trees and forests in `RailsTree` with an invariant on types, notes of paragraphs and dots taken from texts; that the entries are still plain after `transform` by `Lemmas/Steady`: a condition on nodes that every single change of the transformer keeps is kept by every run |
| C82 | parse, transform and translate, and what they put into the texts of nodes; `Spec/CleanSource` says what an author has to see to: no angle brackets, display formulas in paragraphs, one in each, entries that can be linked | C37 applied to what transform returns; no angle brackets after parsing by an invariant of every step of the parser and of normalisation (`CleanParse`), after transforming by `Steady` (`CleanRun`); the order of the children of a paragraph through transform by a new field of `Transformed` (`ReadyRun`); the formulas of the source by induction on its outline (`CleanFit`) |
| C83 | the whole program: `Model/Program` plugs the models of `reader.py`, the parser, the transformer, the linter, the translators, the builder and `writer.py`, with the messages they log, into the pipelines of `app.py`; the state is the heap, the files and the logger; `Spec/Program` says what a run is to do (`SourceText`, `Compiled`, `Rendered`, `Builds`, `heard`) | every stage is described by its outcome, the state it leaves and the messages it logs, for every state of the logger (`Does`); these compose along the pipeline (`Lemmas/Program`); each relation of the specification has exactly one outcome |
| C84 | the same; hypotheses are stated of the syntax tree of the source | C63, C65, C76, C78-C82 and C50 about what the stages of C83 are given; that a page begins with the body by the first command of the translators |
| C85 | the same, with `Build.fullBuild` and the files it writes | C83 and C55 |
| C86 | the log of `transform` and of `translate`; `Spec/Warnings` lists the reasons in the document (`Remarks`, `transformWarnings`, `entryLacks`, `translateWarnings`) | the invariants of C16 – C29 give the log of each pass of `transform`; all visit and leave methods but the one of bibliography entries are shown to log nothing, then induction over the tree; C67 for the parser, C83 for the program |
| C87 | all stages and applications, run twice: in a process that has made no node and in one that has made `n`; `Spec/History` says what it means that the two give the same | a simulation of all of the code (`Sim`): the object `r` of the first run is `r + n` of the second, shown for every function of the node interface, the parser, each pass of the transformer, both translators, the linter and the applications; the loops of the second run have at least the bound of the first; `repr` of nodes shows no addresses (`noAddresses_repr`) |
| C88 | all stages and applications; `Spec/SourceLinks` reads the labels, references and citations off the outline of the source, and `Published` says which pages users get | `parse_labels`: the nodes that the parser makes carry exactly the labels of the outline and of the entries, and the citations are in the order of the source; then C74 (links of a document lead to what they name), C17 (unknown labels), and that the translators change no text that does not begin with a full stop (`LeavesTexts`); C87 for any history; the builder strips only blanks at the ends; the entry that is made for an unknown label of a citation is outside of the document, hence no pass changes its number, which is the message (`stray_after`, `unknown_run`); the entries of the manuscript are those of the bibliographies, in their order, because no other node is one, hence C22 gives each its position as its number (`parse_entries_order`, `entry_expected`; `C88_citation_number` is for sources without appendix markers, in which no entry has a `reftext_template` of its own); the links back of an entry are C18's, and the parser makes entries without any (`entry_of_label`, `C88_backlinks`) |
| C89 | the commands (`Model/Cli`): `cli.main` applied to the applications with all stages; the parsed command line is an argument (argparse is not modelled) | from C83, C84, C85 and C87: the run of the application in a new process decides the result, and `cli.main` only adds the exit status and what is printed |
| C90 | the parser, `transform` and the programs, as for C84; `prevsFine` and `LettersSuffice` (`Spec/Structure`) are read off the source | the converses of what C79 needs (`Lemmas/Refused`): if every reference finds its step, the outline is fine, by induction on the document; 27 lettered parts of the source are 27 numbered nodes after the last appendix marker; then C76 and C83 |
| C91 | all stages and applications, as for C88; `Spec/SourceNumbers` reads the numbers off the outline of the source, from what is before and around each place | the places of the outline are the nodes of the parsed document (`places_tree`); C22 and C25 for the numbers among nodes, of which only nodes with a look in the source count (`expected_own`); the passes after numbering keep the numbered ancestors (`numbers_run`), so that the recursive full number is the one of the outline (`full_of`, and `full_unique`); then what the translators write for a section, a theorem, a figure, a caption, a display formula (when it is left, `translate_ended`) and a reference |
| C92 | all stages and applications, as for C91; `Spec/SourceSteps` walks the outline of the source, counting the steps directly in the same thing | the steps of the outline are the nodes of the parsed document (`steps_tree`, along which the scope of the number is carried); numbering gives the i-th step of a proof, subproof or step the number i (`NumbersRun.steps`) and the passes after it keep the proofs and steps around (`NumbersRun.classes`); a proof has no number unless the author gives one in its metadata (`Given.of_proof`, hence the hypothesis `ProofsUnnumbered`); then what the handrails translator writes when it leaves a step (`translate_ended`) and what a reference shows; for the references to earlier steps the walk also carries the steps that they can lead to (`prevs_tree`), which are those of C19 |
| C93 | all stages and applications, as for C91; the entries are compared with the headings of `Spec/SourceNumbers`, `InOrder` is in `Spec/SourceContents` | making the table gives each section of the document one reference with its number and title (`makeToc_spec`, `TocItems.targets`), which the later passes keep, as they do the number (`contents_run`); the sections of the document are places of the source (`placed_all`, in the same order), with the number that the source gives them; what the translator writes for the nodes of a document is in the order of the document (`translate_ordered`, by induction); then what is written for the table (`contents_shows`) and for a reference |
| C94 | all stages and applications, as for C91; `shownAs` (`Spec/SourceOrder`) is what C91 says of a place of the source, or the title or a heading with fixed text | the places are nodes of the document, in the same order (`placed_all`); `transform` keeps the order of the author's nodes (C31), and the translator writes for them in the order of the document (`translate_ordered`); the page that `make` writes has the body without the blanks at its ends, and no piece begins or ends with a blank (`inOrder_page`); `C94_entries`: the entries of the manuscript are those of the bibliographies in their order (`parse_entries_order`), and each with a label of its own keeps it |
| C54-C55 | `builder.py` | the two regular expressions as scanners |
| C56 | `cli.py` | case analysis over the outcomes of the stages |

## Disagreements between the code and what a user would expect

Each row but the last ones has a machine-checked witness: the named theorem is about a concrete run
of the model (or about all runs of a certain form).

| behaviour | theorem |
|-----------|---------|
| `prepend` of an existing child lists it twice; `append` can make a cycle; `replace_self` can give a node two parents; a rejected `append` leaves a listed orphan | `C02_prepend_duplicates`, `C02_append_makes_cycle`, `C02_replace_self_two_parents`, `C02_rejected_append_lists_orphan` |
| editing calls rejected by the parent-class restriction have already edited the tree | `C04_append_not_atomic`, `C04_prepend_not_atomic`, `C04_replace_self_not_atomic`, `C04_append_list_not_atomic` |
| node equality is not symmetric and ignores class and text | `C11_not_symmetric`, `C11_ignores_class`, `C11_ignores_text` |
| `traverse` on a cycle never ends | `C06_cycle_diverges` |
| an author label `cite-0` collides with a generated one | `C15_collision` |
| citing a label of a node that is not a bibliography item raises `AttributeError` | `C18_attribute_error` |
| `add_necessary_subproofs` twice wraps again | `C20_not_idempotent` |
| the 27th manuscript-level item after an appendix raises `StopIteration` | `C23_stop_iteration` |
| full numbers repeat | `C24_full_numbers_repeat` |
| ill-nested sections make the table of contents raise, or misplace items | `C26_ill_nested_raises`, `C26_ill_nested_misplaced` |
| a lemma counts as two handrails | `C28_counted_twice` |
| a reused `Transformer` empties labels and refers across manuscripts | `C30_same_tree_twice`, `C30_cross_manuscript` |
| `EscapedString.index` returns -1 or runs for ever | `C35_index_minus_one`, `C35_index_diverges` |
| `EscapedString.split` loses characters | `C36_split_loses_text` |
| a paragraph with two display formulas that ends in one has an unmatched `</p>`; texts are not escaped; a second translation with handrails can be ill nested | `C37_two_formulas`, `C37_not_escaped`, `C37_second_translation` |
| with handrails the full stop after a formula leaves its text node | `C39_handrails_stop` |
| with handrails a second translation differs and has a stray `</span>` | `C40_handrails_false` |
| a failed translation poisons the translator | `C41_poisoned` |
| with handrails class attributes can repeat a class | `C42_handrails_repeats` |
| two pipeline tasks with one name cannot be popped | `C45_pop_same_name` |
| `make` never lints, uses handrails iff `lint`, and ignores `handrails` and `log_lineno` | `C47_make`, `C47_make_ignores` |
| creating a `Linter` can lower the level of the logger | `C48_linter_lowers_level` |
| a processing run with the linter on hides the lint messages at the default level | `C49_default_level_hides` |
| the source shown by handrails can take over the page title | `C54_source_takes_over`, `C54_example_wrong_title` |
| two assets with one file name overwrite each other, and default files | `C55_collision` |
| exit status 0 after a parse error | `C56_status`, `C56_render_parse_error`, `C89_parser_error` |
| a verbatim text directly after a plain text is unescaped | `C52_verbatim_unescaped` |
| a span directly after the keyword of a construct is glued to it | `C61_no_blank_before_span` |
| `IndexError`, `RSMNodeError`, `ValueError`, `AssertionError` and `KeyError` escape from the parser for an empty paragraph, an item outside of a list, an error within a meta pair, a formula without content, a construct of unknown kind | `C65_witnesses`, `C65_witness_key` |
| a labelled caption has no id on the page, so a link to it leads nowhere | `C74_caption_dangles` |
| a bibliography item without a year makes both translators raise `AttributeError`, and an author of whom nothing is said the one with handrails | `C78_outcome` with the cases `year` and `author` of `Obstacle` |
| without `transform` a display formula directly in a step, with something after it, makes the plain translator raise `AttributeError` | `C78_step` |
| a reference text that shows `{nodeclass}` in braces can be formed, but not for a section after an appendix (`KeyError`) | `C79_braces` |
| a figure that is not to be numbered is shown as `Figure None.` (so are its caption, and a note) | `C80_unnumbered_figure` |
| a reference to something with `:nonum:` shows `None` as its number, and so do a figure with `:nonum:` and its caption | `C91_unnumbered`, `C91_image`, `C91_caption` |
| the steps inside a step with `:nonum:` are numbered as if they were at the top of the proof, so that two steps of one proof can show the same number; and `:number:` in the metadata of a proof, which no part of the page shows, comes before the numbers of its steps | `Spec/SourceSteps` (`stepsL`), `C92_number`; the second is why `ProofsUnnumbered` is a hypothesis |
| a citation of an unknown label is a link to `#`, that is to nothing | `C88_unknown_citation` |
| the entry of a section without a label in the table of contents is a link to `#`, that is to nothing | `C93_entry`, whose link is the label of the section |
| a display formula outside of a paragraph makes the plain translator raise `AssertionError`; the one with handrails writes it, with a stray `</p>` | `C81_loose_formula` |
| a tag in a text of the source is a tag on the page, so that the page need not be well nested; nor need it be when a paragraph of the source has two display formulas | `C82_angle`, `C82_two_formulas` |
| `rsm.lint()` with its default log format cannot format the messages of the linter | `C84_lint` |
| the warning for an entry of the bibliography without a link shows `{node}` literally (translator.py:1853 is not an f-string) | `C86_render` with `translatorWarning .noLink` |
| the text `src="x"` in a paragraph makes `make` look for a file `x` | `C85_text_asset` |
| a bibliography with more than 26 entries after an appendix marker makes `transform` raise `StopIteration` | `C90_bibliography` |

Seen while reading, not (yet) theorems: an `Error` node is a `Text`, so it is merged into a text beside
it; a bibliography field called `children` raises `RSMParserError`; a table cell and a special table keep
only their first named child, and a paragraph that begins with an item or caption drops the rest (both
are part of the specification `parts` of C64 and C68); the id of a
figure is written twice; a failed
logger configuration leaves the logger without handlers; three or more texts in a row of which one is
blank leave two blanks in the merged text; a reference to a table of contents that is removed as not the
first leads nowhere; a claim (a display formula marked as one) is put into a claim block, which is not a
paragraph, and a display formula directly in a step is put into a statement, so the plain translator raises
`AssertionError` for both (`PageSource.formulas` excludes them); a caption that goes on after a display formula
ends with a stray `</p>` (part of `Render.closing`); a text that ends a line with a comment after it can be glued
to the inline element on the next line; an `ERROR` that is the first child of a special block with a meta region
gets the label of that region.
