{
 "claims": [
  {
   "property": "C01",
   "status": "proved",
   "theorems": [
    "RSM.C01_parent_lists_child"
   ],
   "note": "Modelled: node API on the heap, histories as lists of operations. Proof: invariant by induction over operations, failing ones included."
  },
  {
   "property": "C02",
   "status": "proved",
   "theorems": [
    "RSM.C02_forest",
    "RSM.C02_documents",
    "RSM.C02_step",
    "RSM.C02_prepend_duplicates",
    "RSM.C02_append_makes_cycle",
    "RSM.C02_replace_self_two_parents",
    "RSM.C02_rejected_append_lists_orphan"
   ],
   "note": "Modelled: same. Proof: invariant (forest predicate) by induction over disciplined operations; four `decide` witnesses for the failures."
  },
  {
   "property": "C03",
   "status": "proved",
   "theorems": [
    "RSM.C03_append",
    "RSM.C03_append_succeeds_iff",
    "RSM.C03_prepend",
    "RSM.C03_prepend_succeeds_iff",
    "RSM.C03_append_list",
    "RSM.C03_prepend_list",
    "RSM.C03_remove",
    "RSM.C03_remove_succeeds_iff",
    "RSM.C03_clear",
    "RSM.C03_replace_self",
    "RSM.C03_remove_self"
   ],
   "note": "Modelled: same. Proof: exact post-state of each call."
  },
  {
   "property": "C04",
   "status": "proved",
   "theorems": [
    "RSM.C04_append_with_parent",
    "RSM.C04_prepend_with_parent",
    "RSM.C04_remove_not_child",
    "RSM.C04_replace_self_parentless",
    "RSM.C04_append_failures",
    "RSM.C04_remove_failures",
    "RSM.C04_append_not_atomic",
    "RSM.C04_prepend_not_atomic",
    "RSM.C04_replace_self_not_atomic",
    "RSM.C04_append_list_not_atomic"
   ],
   "note": "Modelled: same. Proof: error branch leaves heap equal; witnesses for the non-atomic branches."
  },
  {
   "property": "C05",
   "status": "proved",
   "theorems": [
    "RSM.C05_possible_parents",
    "RSM.C05_restricted_classes",
    "RSM.C05_only_these"
   ],
   "note": "Modelled: parent setter and class table. Proof: invariant by induction over operations."
  },
  {
   "property": "C06",
   "status": "proved",
   "theorems": [
    "RSM.C06_traverse",
    "RSM.C06_traverse_subtree",
    "RSM.C06_traverse_nodeclass",
    "RSM.C06_every_descendant_once",
    "RSM.C06_cycle_diverges"
   ],
   "note": "Modelled: generator stack machine. Proof: equality with a recursive preorder by induction on the tree."
  },
  {
   "property": "C07",
   "status": "proved",
   "theorems": [
    "RSM.C07_get_child_by_id"
   ],
   "note": "Modelled: `get_child_by_id` after `assign_node_ids`. Proof: corollary of C06 and C29."
  },
  {
   "property": "C08",
   "status": "proved",
   "theorems": [
    "RSM.C08_sexp_round_trip",
    "RSM.C08_sexp_injective"
   ],
   "note": "Modelled: the stack printer of `sexp`. Proof: equality with a recursive printer; reader/printer round trip by induction."
  },
  {
   "property": "C09",
   "status": "proved",
   "theorems": [
    "RSM.C09_neighbours",
    "RSM.C09_nearest_of_class",
    "RSM.C09_self",
    "RSM.C09_parentless",
    "RSM.C09_inverse"
   ],
   "note": "Modelled: sibling functions. Proof: list lemmas on the children list."
  },
  {
   "property": "C10",
   "status": "proved",
   "theorems": [
    "RSM.C10_first_of_type",
    "RSM.C10_last_of_type",
    "RSM.C10_first_ancestor_of_type",
    "RSM.C10_ancestors_exist"
   ],
   "note": "Modelled: search functions. Proof: list lemmas; induction along the ancestor chain."
  },
  {
   "property": "C11",
   "status": "proved",
   "theorems": [
    "RSM.C11_reflexive",
    "RSM.C11_different_parents",
    "RSM.C11_descendant",
    "RSM.C11_not_symmetric",
    "RSM.C11_ignores_class",
    "RSM.C11_ignores_text"
   ],
   "note": "Modelled: `__eq__` attribute list. Proof: tree argument: a descendant has a different parent; witnesses."
  },
  {
   "property": "C12",
   "status": "proved",
   "theorems": [
    "RSM.C12_full_number",
    "RSM.C12_full_number_complete"
   ],
   "note": "Modelled: `full_number` recursion up the tree. Proof: induction along the ancestor chain."
  },
  {
   "property": "C13",
   "status": "proved",
   "theorems": [
    "RSM.C13_metakeys_monotone",
    "RSM.C13_metakeys_base"
   ],
   "note": "Modelled: class table and `newmetakeys`. Proof: case analysis over the finite table."
  },
  {
   "property": "C14",
   "status": "proved",
   "theorems": [
    "RSM.C14_collect_labels"
   ],
   "note": "Modelled: `collect_labels`. Proof: loop = fold over document order; invariant on the fold."
  },
  {
   "property": "C15",
   "status": "proved",
   "theorems": [
    "RSM.C15_unique_labels",
    "RSM.C15_collision"
   ],
   "note": "Modelled: composition of passes. Proof: C14 + frame properties of every later pass."
  },
  {
   "property": "C16",
   "status": "proved",
   "theorems": [
    "RSM.C16_no_pending",
    "RSM.C16_outcome"
   ],
   "note": "Modelled: `resolve_pending_references`. Proof: loop invariant on the partially rewritten tree; the count of a `:prev:` is the number that `Spec/Numeral` reads off the text (`C19_count`)."
  },
  {
   "property": "C17",
   "status": "proved",
   "theorems": [
    "RSM.C17_known",
    "RSM.C17_unknown"
   ],
   "note": "Modelled: `resolve_pending_references`. Proof: loop invariant on the partially rewritten tree; the count of a `:prev:` is the number that `Spec/Numeral` reads off the text (`C19_count`)."
  },
  {
   "property": "C18",
   "status": "proved",
   "theorems": [
    "RSM.C18_cites",
    "RSM.C18_backlinks",
    "RSM.C18_attribute_error"
   ],
   "note": "Modelled: `resolve_pending_references`. Proof: loop invariant on the partially rewritten tree; the count of a `:prev:` is the number that `Spec/Numeral` reads off the text (`C19_count`)."
  },
  {
   "property": "C19",
   "status": "proved",
   "theorems": [
    "RSM.C19_count",
    "RSM.C19_prev",
    "RSM.C19_errors"
   ],
   "note": "Modelled: `resolve_pending_references`. Proof: loop invariant on the partially rewritten tree; the count of a `:prev:` is the number that `Spec/Numeral` reads off the text (`C19_count`)."
  },
  {
   "property": "C20",
   "status": "proved",
   "theorems": [
    "RSM.C20_arranged",
    "RSM.C20_step_children",
    "RSM.C20_outcome",
    "RSM.C20_not_idempotent"
   ],
   "note": "Modelled: `add_necessary_subproofs`. Proof: induction on the tree with the self-modifying traversal."
  },
  {
   "property": "C21",
   "status": "proved",
   "theorems": [
    "RSM.C21_order",
    "RSM.C21_attributes"
   ],
   "note": "Modelled: `add_necessary_subproofs`. Proof: induction on the tree with the self-modifying traversal."
  },
  {
   "property": "C22",
   "status": "proved",
   "theorems": [
    "RSM.C22_numbers"
   ],
   "note": "Modelled: `autonumber_nodes`. Proof: fold invariant: counters = declarative counts."
  },
  {
   "property": "C23",
   "status": "proved",
   "theorems": [
    "RSM.C23_letters",
    "RSM.C23_stop_iteration"
   ],
   "note": "Modelled: `autonumber_nodes`. Proof: fold invariant: counters = declarative counts."
  },
  {
   "property": "C24",
   "status": "proved",
   "theorems": [
    "RSM.C24_distinct",
    "RSM.C24_same_section",
    "RSM.C24_manuscript_level",
    "RSM.C24_full_numbers_repeat"
   ],
   "note": "Modelled: `autonumber_nodes`. Proof: fold invariant: counters = declarative counts."
  },
  {
   "property": "C25",
   "status": "proved",
   "theorems": [
    "RSM.C25_steps"
   ],
   "note": "Modelled: `autonumber_nodes`. Proof: fold invariant: counters = declarative counts."
  },
  {
   "property": "C26",
   "status": "proved",
   "theorems": [
    "RSM.C26_toc",
    "RSM.C26_every_section_in_order",
    "RSM.C26_rest_unchanged",
    "RSM.C26_none",
    "RSM.C26_ill_nested_raises",
    "RSM.C26_ill_nested_misplaced"
   ],
   "note": "Modelled: `make_toc`. Proof: induction over the section forest with the cursor as part of the invariant."
  },
  {
   "property": "C27",
   "status": "proved",
   "theorems": [
    "RSM.C27_constructs",
    "RSM.C27_no_kind"
   ],
   "note": "Modelled: `add_keywords_to_constructs`. Proof: fold."
  },
  {
   "property": "C28",
   "status": "proved",
   "theorems": [
    "RSM.C28_handrail_depth",
    "RSM.C28_weight",
    "RSM.C28_documented",
    "RSM.C28_counted_twice"
   ],
   "note": "Modelled: `add_handrail_depth`. Proof: double fold; counting."
  },
  {
   "property": "C29",
   "status": "proved",
   "theorems": [
    "RSM.C29_node_ids"
   ],
   "note": "Modelled: `assign_node_ids`. Proof: fold."
  },
  {
   "property": "C30",
   "status": "proved",
   "theorems": [
    "RSM.C30_index_kept",
    "RSM.C30_second_call",
    "RSM.C30_cross_manuscript",
    "RSM.C30_same_tree_twice"
   ],
   "note": "Modelled: two runs of `transform`. Proof: fold with non-empty initial index."
  },
  {
   "property": "C31",
   "status": "proved",
   "theorems": [
    "RSM.C31_author_nodes",
    "RSM.C31_text"
   ],
   "note": "Modelled: composition. Proof: frame properties."
  },
  {
   "property": "C32",
   "status": "proved",
   "theorems": [
    "RSM.C32_escape",
    "RSM.C32_order_irrelevant",
    "RSM.C32_order_matters_with_backslash"
   ],
   "note": "Modelled: `EscapedString`. Proof: induction on strings; explicit nontermination for `index`."
  },
  {
   "property": "C33",
   "status": "proved",
   "theorems": [
    "RSM.C33_round_trip"
   ],
   "note": "Modelled: `EscapedString`. Proof: induction on strings; explicit nontermination for `index`."
  },
  {
   "property": "C34",
   "status": "proved",
   "theorems": [
    "RSM.C34_find"
   ],
   "note": "Modelled: `EscapedString`. Proof: induction on strings; explicit nontermination for `index`."
  },
  {
   "property": "C35",
   "status": "proved",
   "theorems": [
    "RSM.C35_index_raises",
    "RSM.C35_index_first",
    "RSM.C35_index_minus_one",
    "RSM.C35_index_diverges"
   ],
   "note": "Modelled: `EscapedString`. Proof: induction on strings; explicit nontermination for `index`."
  },
  {
   "property": "C36",
   "status": "proved",
   "theorems": [
    "RSM.C36_split_count",
    "RSM.C36_split_pieces",
    "RSM.C36_split_loses_text"
   ],
   "note": "Modelled: `EscapedString`. Proof: induction on strings; explicit nontermination for `index`."
  },
  {
   "property": "C37",
   "status": "proved",
   "theorems": [
    "RSM.C37_well_nested",
    "RSM.C37_two_formulas",
    "RSM.C37_not_escaped",
    "RSM.C37_second_translation",
    "RSM.C37_page",
    "RSM.C37_manuscript_page"
   ],
   "note": "Modelled: output of both translators read by a tag scanner (`Spec/Html`, `Spec/Balance`). Proof: every command is a transformer of the stack of open elements; induction on the tree with the marks `mustclosep` and `followed_by_dot` as ghost state."
  },
  {
   "property": "C38",
   "status": "proved",
   "theorems": [
    "RSM.C38_empty_after",
    "RSM.C38_error_unreachable",
    "RSM.C38_subtree_restores"
   ],
   "note": "Modelled: `Translator` and commands as a stack machine over the heap. Proof: big-step lemma by induction on the tree."
  },
  {
   "property": "C39",
   "status": "proved",
   "theorems": [
    "RSM.C39_text_order",
    "RSM.C39_text_kept",
    "RSM.C39_handrails_stop"
   ],
   "note": "Modelled: `Translator` and commands as a stack machine over the heap. Proof: big-step lemma by induction on the tree."
  },
  {
   "property": "C40",
   "status": "proved",
   "theorems": [
    "RSM.C40_plain_twice",
    "RSM.C40_handrails_false"
   ],
   "note": "Modelled: `Translator` and commands as a stack machine over the heap. Proof: big-step lemma by induction on the tree."
  },
  {
   "property": "C41",
   "status": "proved",
   "theorems": [
    "RSM.C41_poisoned",
    "RSM.C41_plain",
    "RSM.C41_handrails"
   ],
   "note": "Modelled: `Translator` and commands as a stack machine over the heap. Proof: big-step lemma by induction on the tree."
  },
  {
   "property": "C42",
   "status": "proved",
   "theorems": [
    "RSM.C42_own_tag",
    "RSM.C42_written",
    "RSM.C42_no_repeats",
    "RSM.C42_handrails_repeats"
   ],
   "note": "Modelled: `Translator` and commands as a stack machine over the heap. Proof: big-step lemma by induction on the tree."
  },
  {
   "property": "C43",
   "status": "proved",
   "theorems": [
    "RSM.C43_nearest",
    "RSM.C43_has_node"
   ],
   "note": "Modelled: `Translator` and commands as a stack machine over the heap. Proof: big-step lemma by induction on the tree."
  },
  {
   "property": "C44",
   "status": "proved",
   "theorems": [
    "RSM.C44_sources"
   ],
   "note": "Modelled: `app.py`. Proof: case analysis, list induction over tasks."
  },
  {
   "property": "C45",
   "status": "proved",
   "theorems": [
    "RSM.C45_run",
    "RSM.C45_add",
    "RSM.C45_stops",
    "RSM.C45_pop",
    "RSM.C45_pop_empty",
    "RSM.C45_pop_same_name"
   ],
   "note": "Modelled: `app.py`. Proof: case analysis, list induction over tasks."
  },
  {
   "property": "C46",
   "status": "proved",
   "theorems": [
    "RSM.C46_run"
   ],
   "note": "Modelled: `app.py`. Proof: case analysis, list induction over tasks."
  },
  {
   "property": "C47",
   "status": "proved",
   "theorems": [
    "RSM.C47_render",
    "RSM.C47_lint",
    "RSM.C47_make",
    "RSM.C47_make_ignores",
    "RSM.C47_lint_ignores"
   ],
   "note": "Modelled: `app.py`. Proof: case analysis, list induction over tasks."
  },
  {
   "property": "C48",
   "status": "proved",
   "theorems": [
    "RSM.C48_config_succeeds",
    "RSM.C48_level_respected",
    "RSM.C48_linters_do_no_harm",
    "RSM.C48_linter_lowers_level"
   ],
   "note": "Modelled: `rsmlogger.py`. Proof: invariants over histories."
  },
  {
   "property": "C49",
   "status": "proved",
   "theorems": [
    "RSM.C49_lint_run",
    "RSM.C49_lint_text",
    "RSM.C49_processing_run",
    "RSM.C49_default_level_hides"
   ],
   "note": "Modelled: `rsmlogger.py`. Proof: invariants over histories."
  },
  {
   "property": "C50",
   "status": "proved",
   "theorems": [
    "RSM.C50_lint",
    "RSM.C50_lint_output"
   ],
   "note": "Modelled: `linter.py`. Proof: loop = fold over document order."
  },
  {
   "property": "C51",
   "status": "proved",
   "theorems": [
    "RSM.Normalize.C51_no_adjacent_texts"
   ],
   "note": "Modelled: `_normalize_text` with its self-modifying traversal. Proof: one step of the loop body computed exactly on labelled trees (`Norm`), the loop by induction on a cost that counts the nodes still to be added; the properties by induction on `Norm`."
  },
  {
   "property": "C52",
   "status": "proved",
   "theorems": [
    "RSM.Normalize.C52_ink_by_runs",
    "RSM.Normalize.C52_visible_text",
    "RSM.Normalize.C52_verbatim_unescaped"
   ],
   "note": "Modelled: `_normalize_text` with its self-modifying traversal. Proof: one step of the loop body computed exactly on labelled trees (`Norm`), the loop by induction on a cost that counts the nodes still to be added; the properties by induction on `Norm`."
  },
  {
   "property": "C53",
   "status": "proved",
   "theorems": [
    "RSM.C53_exactly_once",
    "RSM.C53_flush",
    "RSM.C53_no_target",
    "RSM.C53_target_raises"
   ],
   "note": "Modelled: `rsmlogger.py`. Proof: invariants over histories."
  },
  {
   "property": "C54",
   "status": "proved",
   "theorems": [
    "RSM.C54_title",
    "RSM.C54_page",
    "RSM.C54_manuscript_title",
    "RSM.C54_manuscript_title_handrails",
    "RSM.C54_source_takes_over",
    "RSM.C54_example_wrong_title"
   ],
   "note": "Modelled: `builder.py`. Proof: the two regular expressions as scanners."
  },
  {
   "property": "C55",
   "status": "proved",
   "theorems": [
    "RSM.C55_assets",
    "RSM.C55_build",
    "RSM.C55_missing",
    "RSM.C55_asset_copied",
    "RSM.C55_page",
    "RSM.C55_default_files",
    "RSM.C55_collision"
   ],
   "note": "Modelled: `builder.py`. Proof: the two regular expressions as scanners."
  },
  {
   "property": "C56",
   "status": "proved",
   "theorems": [
    "RSM.C56_status",
    "RSM.C56_render",
    "RSM.C56_render_parse_error",
    "RSM.C56_lint_silent",
    "RSM.C56_make_silent"
   ],
   "note": "Modelled: `cli.py`. Proof: case analysis over the outcomes of the stages."
  },
  {
   "property": "C57",
   "status": "proved",
   "theorems": [
    "RSM.Normalize.C57_nodes_kept"
   ],
   "note": "Modelled: `_normalize_text` with its self-modifying traversal. Proof: one step of the loop body computed exactly on labelled trees (`Norm`), the loop by induction on a cost that counts the nodes still to be added; the properties by induction on `Norm`."
  },
  {
   "property": "C58",
   "status": "proved",
   "theorems": [
    "RSM.Normalize.C58_new_nodes"
   ],
   "note": "Modelled: `_normalize_text` with its self-modifying traversal. Proof: one step of the loop body computed exactly on labelled trees (`Norm`), the loop by induction on a cost that counts the nodes still to be added; the properties by induction on `Norm`."
  },
  {
   "property": "C59",
   "status": "proved",
   "theorems": [
    "RSM.Normalize.C59_inline_apart"
   ],
   "note": "Modelled: `_normalize_text` with its self-modifying traversal. Proof: one step of the loop body computed exactly on labelled trees (`Norm`), the loop by induction on a cost that counts the nodes still to be added; the properties by induction on `Norm`."
  },
  {
   "property": "C60",
   "status": "proved",
   "theorems": [
    "RSM.Normalize.C60_trimmed"
   ],
   "note": "Modelled: `_normalize_text` with its self-modifying traversal. Proof: one step of the loop body computed exactly on labelled trees (`Norm`), the loop by induction on a cost that counts the nodes still to be added; the properties by induction on `Norm`."
  },
  {
   "property": "C61",
   "status": "proved",
   "theorems": [
    "RSM.Normalize.C61_keyword",
    "RSM.Normalize.C61_no_blank_before_span"
   ],
   "note": "Modelled: `_normalize_text` with its self-modifying traversal. Proof: one step of the loop body computed exactly on labelled trees (`Norm`), the loop by induction on a cost that counts the nodes still to be added; the properties by induction on `Norm`."
  },
  {
   "property": "C62",
   "status": "proved",
   "theorems": [
    "RSM.Normalize.C62_outcome"
   ],
   "note": "Modelled: `_normalize_text` with its self-modifying traversal. Proof: one step of the loop body computed exactly on labelled trees (`Norm`), the loop by induction on a cost that counts the nodes still to be added; the properties by induction on `Norm`."
  },
  {
   "property": "C63",
   "status": "proved",
   "theorems": [
    "RSM.Parser.C63_document"
   ],
   "note": "Modelled: `TSParser.parse` on arbitrary concrete syntax trees. Proof: the stack loop equals a recursive evaluation `ev` (`ParserRun`, `ParserEval`); the heap it leaves is described by items (`Built`, `ParserState`); `ev` agrees with the declarative reading of the tree (`Spec/Parser`: parts, reads, outline, bibliographies, warnings) by induction on the tree (`ParserSay2`); normalisation keeps all of it (`ParserFinal`, `ParserDone`); success for well-formed sources (`Spec/Source`) by the same induction (`ParserLegal`)."
  },
  {
   "property": "C64",
   "status": "proved",
   "theorems": [
    "RSM.Parser.C64_text"
   ],
   "note": "Modelled: `TSParser.parse` on arbitrary concrete syntax trees. Proof: the stack loop equals a recursive evaluation `ev` (`ParserRun`, `ParserEval`); the heap it leaves is described by items (`Built`, `ParserState`); `ev` agrees with the declarative reading of the tree (`Spec/Parser`: parts, reads, outline, bibliographies, warnings) by induction on the tree (`ParserSay2`); normalisation keeps all of it (`ParserFinal`, `ParserDone`); success for well-formed sources (`Spec/Source`) by the same induction (`ParserLegal`)."
  },
  {
   "property": "C65",
   "status": "proved",
   "theorems": [
    "RSM.Parser.C65_outcome",
    "RSM.Parser.C65_no_manuscript",
    "RSM.Parser.C65_witnesses",
    "RSM.Parser.C65_witness_key"
   ],
   "note": "Modelled: `TSParser.parse` on arbitrary concrete syntax trees. Proof: the stack loop equals a recursive evaluation `ev` (`ParserRun`, `ParserEval`); the heap it leaves is described by items (`Built`, `ParserState`); `ev` agrees with the declarative reading of the tree (`Spec/Parser`: parts, reads, outline, bibliographies, warnings) by induction on the tree (`ParserSay2`); normalisation keeps all of it (`ParserFinal`, `ParserDone`); success for well-formed sources (`Spec/Source`) by the same induction (`ParserLegal`)."
  },
  {
   "property": "C66",
   "status": "proved",
   "theorems": [
    "RSM.Parser.C66_bibliography"
   ],
   "note": "Modelled: `TSParser.parse` on arbitrary concrete syntax trees. Proof: the stack loop equals a recursive evaluation `ev` (`ParserRun`, `ParserEval`); the heap it leaves is described by items (`Built`, `ParserState`); `ev` agrees with the declarative reading of the tree (`Spec/Parser`: parts, reads, outline, bibliographies, warnings) by induction on the tree (`ParserSay2`); normalisation keeps all of it (`ParserFinal`, `ParserDone`); success for well-formed sources (`Spec/Source`) by the same induction (`ParserLegal`)."
  },
  {
   "property": "C67",
   "status": "proved",
   "theorems": [
    "RSM.Parser.C67_warnings"
   ],
   "note": "Modelled: `TSParser.parse` on arbitrary concrete syntax trees. Proof: the stack loop equals a recursive evaluation `ev` (`ParserRun`, `ParserEval`); the heap it leaves is described by items (`Built`, `ParserState`); `ev` agrees with the declarative reading of the tree (`Spec/Parser`: parts, reads, outline, bibliographies, warnings) by induction on the tree (`ParserSay2`); normalisation keeps all of it (`ParserFinal`, `ParserDone`); success for well-formed sources (`Spec/Source`) by the same induction (`ParserLegal`)."
  },
  {
   "property": "C68",
   "status": "proved",
   "theorems": [
    "RSM.Parser.C68_outline"
   ],
   "note": "Modelled: `TSParser.parse` on arbitrary concrete syntax trees. Proof: the stack loop equals a recursive evaluation `ev` (`ParserRun`, `ParserEval`); the heap it leaves is described by items (`Built`, `ParserState`); `ev` agrees with the declarative reading of the tree (`Spec/Parser`: parts, reads, outline, bibliographies, warnings) by induction on the tree (`ParserSay2`); normalisation keeps all of it (`ParserFinal`, `ParserDone`); success for well-formed sources (`Spec/Source`) by the same induction (`ParserLegal`)."
  },
  {
   "property": "C69",
   "status": "proved",
   "theorems": [
    "RSM.Parser.C69_failure"
   ],
   "note": "Modelled: `TSParser.parse` on arbitrary concrete syntax trees. Proof: the stack loop equals a recursive evaluation `ev` (`ParserRun`, `ParserEval`); the heap it leaves is described by items (`Built`, `ParserState`); `ev` agrees with the declarative reading of the tree (`Spec/Parser`: parts, reads, outline, bibliographies, warnings) by induction on the tree (`ParserSay2`); normalisation keeps all of it (`ParserFinal`, `ParserDone`); success for well-formed sources (`Spec/Source`) by the same induction (`ParserLegal`)."
  },
  {
   "property": "C70",
   "status": "proved",
   "theorems": [
    "RSM.Parser.C70_parsed"
   ],
   "note": "Modelled: `TSParser.parse` on arbitrary concrete syntax trees. Proof: the stack loop equals a recursive evaluation `ev` (`ParserRun`, `ParserEval`); the heap it leaves is described by items (`Built`, `ParserState`); `ev` agrees with the declarative reading of the tree (`Spec/Parser`: parts, reads, outline, bibliographies, warnings) by induction on the tree (`ParserSay2`); normalisation keeps all of it (`ParserFinal`, `ParserDone`); success for well-formed sources (`Spec/Source`) by the same induction (`ParserLegal`)."
  },
  {
   "property": "C71",
   "status": "proved",
   "theorems": [
    "RSM.Normalize.C71_words"
   ],
   "note": "Modelled: words: `Spec/Words` (pieces, white space, words of a node before and after normalisation) and `Spec/Prose` (what a source is to show, with blanks for line breaks). Proof: equality up to words as a congruence on flows (`SameF`), by induction on `Norm` (`NormWords`); the parser's items show the flow of the parts by induction on the tree (`ParserWords`). At the root itself, where the bibliographies stand, only the sequence of pieces is stated unless there is no bibliography."
  },
  {
   "property": "C72",
   "status": "proved",
   "theorems": [
    "RSM.Parser.C72_words"
   ],
   "note": "Modelled: words: `Spec/Words` (pieces, white space, words of a node before and after normalisation) and `Spec/Prose` (what a source is to show, with blanks for line breaks). Proof: equality up to words as a congruence on flows (`SameF`), by induction on `Norm` (`NormWords`); the parser's items show the flow of the parts by induction on the tree (`ParserWords`). At the root itself, where the bibliographies stand, only the sequence of pieces is stated unless there is no bibliography."
  },
  {
   "property": "C73",
   "status": "proved",
   "theorems": [
    "RSM.Normalize.C73_verbatim_kept",
    "RSM.Parser.C73_source_verbatim"
   ],
   "note": "Modelled: verbatim contents: `Spec/Verbatim` (of a document) and `verbs` in `Spec/Prose` (of a source). Proof: functions on labelled trees that ignore texts and keywords are unchanged by merging, stripping and keywords (`Ignores`), a lone verbatim text is only stripped (`NormVerb`); the parser's items by the induction of `ParserWords`. Leading white space of the first line of a code block is lost: that is what the code does, and the statement says so."
  },
  {
   "property": "C74",
   "status": "proved",
   "theorems": [
    "RSM.C74_anchor",
    "RSM.C74_reference",
    "RSM.C74_cite",
    "RSM.C74_backlink",
    "RSM.C74_reference_leads",
    "RSM.C74_citation_leads",
    "RSM.C74_caption_dangles"
   ],
   "note": "Modelled: `transform` followed by `translate` of either translator; ids and links as texts on the page (`Html.HasId`, `Html.HasLink`). Proof: every node of the tree is visited once and the text of its command is part of the output (`TrLinks`); every visit method of the classes in `anchored` opens a tag with the label as id (`TrAnchors`); where references and targets are after all passes (`LinkRun`). Links back: only for the plain translator."
  },
  {
   "property": "C75",
   "status": "proved",
   "theorems": [
    "RSM.C75_outcome",
    "RSM.C75_success",
    "RSM.C75_exceptions"
   ],
   "note": "Modelled: all passes of `transform`; `TransformEnds` in `Spec/Transform` lists the ways to end and their precedence. Proof: each pass returns or raises for a stated reason (C10, C21, C23, C25 and the lemmas under them); the reasons are stated of the document as given, so they are carried over the passes before (`MapCls`, `lettersRunOut_same`) (`Lemmas/Outcome`). Both directions: the description leaves one outcome only."
  },
  {
   "property": "C76",
   "status": "proved",
   "theorems": [
    "RSM.C76_input",
    "RSM.C76_outcome"
   ],
   "note": "Modelled: `TSParser.parse`, `transform` and `translate` one after the other; `Spec/Pipeline` says what a source must be like (no label on a syntax error; well-nested sections if it has a table of contents). Proof: what stands in a parsed manuscript comes from a part of the source or was made by the parser (`ParserOrigin`, `ParserGiven`), so the hypotheses of C75, C31 and C39 follow from the source (`ParserInput`); C64, C31 and C39 compose."
  },
  {
   "property": "C77",
   "status": "proved",
   "theorems": [
    "RSM.C77_page"
   ],
   "note": "Modelled: `TSParser.parse`, `transform` and `translate` one after the other; `Spec/Pipeline` says what a source must be like (no label on a syntax error; well-nested sections if it has a table of contents). Proof: what stands in a parsed manuscript comes from a part of the source or was made by the parser (`ParserOrigin`, `ParserGiven`), so the hypotheses of C75, C31 and C39 follow from the source (`ParserInput`); C64, C31 and C39 compose."
  },
  {
   "property": "C78",
   "status": "proved",
   "theorems": [
    "RSM.Tr.C78_outcome",
    "RSM.Tr.C78_success",
    "RSM.Tr.C78_exceptions",
    "RSM.Tr.C78_step"
   ],
   "note": "Modelled: both translators on arbitrary documents; `Obstacle` in `Spec/Obstacle` lists, per kind of node, what makes it impossible to write and the exception. Proof: a visit raises exactly if its node has an obstacle (`TrFormat` for `str.format`, `TrEnds`, `TrVisitEnds`); leaving never raises (`TrRunEnds`); induction over the tree (`TrAllEnds`). Hypotheses: the targets of references are in the document or stand alone, and no display formula stands directly in a step (as after `transform`); without the latter it is false (`C78_step`)."
  },
  {
   "property": "C79",
   "status": "proved",
   "theorems": [
    "RSM.C79_ready",
    "RSM.C79_presentable",
    "RSM.C79_source",
    "RSM.C79_always",
    "RSM.C79_braces"
   ],
   "note": "Modelled: parse, transform, translate; `Spec/Presentable` says what an author has to see to (of a document, `Presentable`; of a source, `PageSource` and, in `Spec/Structure`, `Structured`: citations of entries, references to earlier steps that find them, subproofs that are last in their steps, at most 26 of each kind after an appendix marker). Proof: what the passes leave of a parsed document meets the hypotheses of C78 (`ReadyRun`, `Presentable`): references lead to nodes of the document or to unknown entries, steps are wrapped; no obstacle is left; the conditions follow from the source by the origin of every node (`ParserPage`); that subproofs stay last by following them through the parser and normalisation (`Structure`), that references find their steps by induction on tree and outline, that letters suffice by counting (`StructureRun`)."
  },
  {
   "property": "C80",
   "status": "proved",
   "theorems": [
    "RSM.Tr.C80_number_unique",
    "RSM.Tr.C80_text_unique",
    "RSM.Tr.C80_names",
    "RSM.Tr.C80_page",
    "RSM.Tr.C80_nested",
    "RSM.Tr.C80_shown",
    "RSM.Tr.C80_heading",
    "RSM.Tr.C80_unnumbered_figure",
    "RSM.C80_transformed",
    "RSM.C80_source"
   ],
   "note": "Modelled: the plain translator, all of it; `Spec/Render` is the specification: a recursive description of the page of a document tree, without commands, deferred commands, stack or notes on nodes; full numbers by `FullNumber`, texts of references by the relation `RefText`. Proof: refinement: every visit method writes `opening` and pushes what `closing` needs (`RenderVisit`, `RenderVisit2`, `RenderVisit3`), every leave method writes `closing` (`RenderLeave`), and by mutual induction on trees and forests, with an invariant on types and on the notes that paragraphs get (`RenderTree`), the translation of a tree writes `Render.page`; for what comes from the parser and transformer by `Transformed` (C79)."
  },
  {
   "property": "C81",
   "status": "proved",
   "theorems": [
    "RSM.Tr.C81_page",
    "RSM.Tr.C81_nested",
    "RSM.Tr.C81_shown",
    "RSM.Tr.C81_step_number",
    "RSM.Tr.C81_dot",
    "RSM.Tr.C81_loose_formula",
    "RSM.C81_transformed",
    "RSM.C81_source"
   ],
   "note": "Modelled: the translator with handrails, all of it; `Spec/Rails` is the specification: a recursive description of the page, on top of `Spec/Render`, without commands, batches, regular expressions or notes on nodes. Proof: refinement, as for C80: visit methods in `RailsVisit`, `RailsVisit2`, `RailsVisit3` (bibliography entries: what the regular expression for the link finds), leave methods in `RailsLeave`, mutual induction on trees and forests in `RailsTree` with an invariant on types, notes of paragraphs and dots taken from texts; that the entries are still plain after `transform` by `Lemmas/Steady`: a condition on nodes that every single change of the transformer keeps is kept by every run."
  },
  {
   "property": "C82",
   "status": "proved",
   "theorems": [
    "RSM.C82_transformed",
    "RSM.C82_source",
    "RSM.C82_always",
    "RSM.C82_rails",
    "RSM.C82_angle",
    "RSM.C82_two_formulas"
   ],
   "note": "Modelled: parse, transform and translate, and what they put into the texts of nodes; `Spec/CleanSource` says what an author has to see to: no angle brackets, display formulas in paragraphs, one in each, entries that can be linked. Proof: C37 applied to what transform returns; no angle brackets after parsing by an invariant of every step of the parser and of normalisation (`CleanParse`), after transforming by `Steady` (`CleanRun`); the order of the children of a paragraph through transform by a new field of `Transformed` (`ReadyRun`); the formulas of the source by induction on its outline (`CleanFit`)."
  },
  {
   "property": "C83",
   "status": "proved",
   "theorems": [
    "RSM.Program.C83_render",
    "RSM.Program.C83_make",
    "RSM.Program.C83_lint_stopped",
    "RSM.Program.C83_lint",
    "RSM.Program.C83_render_same",
    "RSM.Program.C83_make_same",
    "RSM.Program.C83_no_file"
   ],
   "note": "Modelled: the whole program: `Model/Program` plugs the models of `reader.py`, the parser, the transformer, the linter, the translators, the builder and `writer.py`, with the messages they log, into the pipelines of `app.py`; the state is the heap, the files and the logger; `Spec/Program` says what a run is to do (`SourceText`, `Compiled`, `Rendered`, `Builds`, `heard`). Proof: every stage is described by its outcome, the state it leaves and the messages it logs, for every state of the logger (`Does`); these compose along the pipeline (`Lemmas/Program`); each relation of the specification has exactly one outcome."
  },
  {
   "property": "C84",
   "status": "proved",
   "theorems": [
    "RSM.Program.C84_outcome",
    "RSM.Program.C84_page",
    "RSM.Program.C84_described",
    "RSM.Program.C84_described_rails",
    "RSM.Program.C84_lint",
    "RSM.Program.C84_parser_error"
   ],
   "note": "Modelled: the same; hypotheses are stated of the syntax tree of the source. Proof: C63, C65, C76, C78-C82 and C50 about what the stages of C83 are given; that a page begins with the body by the first command of the translators."
  },
  {
   "property": "C85",
   "status": "proved",
   "theorems": [
    "RSM.Program.C85_written",
    "RSM.Program.C85_unwritten",
    "RSM.Program.C85_missing",
    "RSM.Program.C85_witness",
    "RSM.Program.C85_text_asset"
   ],
   "note": "Modelled: the same, with `Build.fullBuild` and the files it writes. Proof: C83 and C55."
  },
  {
   "property": "C86",
   "status": "proved",
   "theorems": [
    "RSM.C86_transform",
    "RSM.C86_remarks",
    "RSM.C86_translate",
    "RSM.Program.C86_compiled",
    "RSM.Program.C86_render"
   ],
   "note": "Modelled: the log of `transform` and of `translate`; `Spec/Warnings` lists the reasons in the document (`Remarks`, `transformWarnings`, `entryLacks`, `translateWarnings`). Proof: the invariants of C16 – C29 give the log of each pass of `transform`; all visit and leave methods but the one of bibliography entries are shown to log nothing, then induction over the tree; C67 for the parser, C83 for the program."
  },
  {
   "property": "C87",
   "status": "proved",
   "theorems": [
    "RSM.History.C87_render",
    "RSM.History.C87_make",
    "RSM.History.C87_lint",
    "RSM.History.C87_render_same",
    "RSM.History.C87_make_same",
    "RSM.History.C87_lint_same",
    "RSM.History.C87_outcome",
    "RSM.History.C87_page"
   ],
   "note": "Modelled: all stages and applications, run twice: in a process that has made no node and in one that has made `n`; `Spec/History` says what it means that the two give the same. Proof: a simulation of all of the code (`Sim`): the object `r` of the first run is `r + n` of the second, shown for every function of the node interface, the parser, each pass of the transformer, both translators, the linter and the applications; the loops of the second run have at least the bound of the first; `repr` of nodes shows no addresses (`noAddresses_repr`)."
  },
  {
   "property": "C88",
   "status": "proved",
   "theorems": [
    "RSM.Program.C88_unknown_citation",
    "RSM.Program.C88_citation_number",
    "RSM.Program.C88_backlinks",
    "RSM.Program.C88_anchor",
    "RSM.Program.C88_reference",
    "RSM.Program.C88_unknown",
    "RSM.Program.C88_citation"
   ],
   "note": "Modelled: all stages and applications; `Spec/SourceLinks` reads the labels, references and citations off the outline of the source, and `Published` says which pages users get. Proof: `parse_labels`: the nodes that the parser makes carry exactly the labels of the outline and of the entries, and the citations are in the order of the source; then C74 (links of a document lead to what they name), C17 (unknown labels), and that the translators change no text that does not begin with a full stop (`LeavesTexts`); C87 for any history; the builder strips only blanks at the ends; the entry that is made for an unknown label of a citation is outside of the document, hence no pass changes its number, which is the message (`stray_after`, `unknown_run`); the entries of the manuscript are those of the bibliographies, in their order, because no other node is one, hence C22 gives each its position as its number (`parse_entries_order`, `entry_expected`; `C88_citation_number` is for sources without appendix markers, in which no entry has a `reftext_template` of its own); the links back of an entry are C18's, and the parser makes entries without any (`entry_of_label`, `C88_backlinks`)."
  },
  {
   "property": "C89",
   "status": "proved",
   "theorems": [
    "RSM.Program.C89_render",
    "RSM.Program.C89_make",
    "RSM.Program.C89_lint",
    "RSM.Program.C89_no_file",
    "RSM.Program.C89_parser_error"
   ],
   "note": "Modelled: the commands (`Model/Cli`): `cli.main` applied to the applications with all stages; the parsed command line is an argument (argparse is not modelled). Proof: from C83, C84, C85 and C87: the run of the application in a new process decides the result, and `cli.main` only adds the exit status and what is printed."
  },
  {
   "property": "C90",
   "status": "proved",
   "theorems": [
    "RSM.Parser.C90_transform",
    "RSM.Parser.C90_exact",
    "RSM.Parser.C90_bibliography",
    "RSM.Program.C90_programs"
   ],
   "note": "Modelled: the parser, `transform` and the programs, as for C84; `prevsFine` and `LettersSuffice` (`Spec/Structure`) are read off the source. Proof: the converses of what C79 needs (`Lemmas/Refused`): if every reference finds its step, the outline is fine, by induction on the document; 27 lettered parts of the source are 27 numbered nodes after the last appendix marker; then C76 and C83."
  },
  {
   "property": "C91",
   "status": "proved",
   "theorems": [
    "RSM.Program.C91_heading",
    "RSM.Program.C91_title",
    "RSM.Program.C91_reference",
    "RSM.Program.C91_image",
    "RSM.Program.C91_caption",
    "RSM.Program.C91_formula",
    "RSM.Program.C91_unnumbered"
   ],
   "note": "Modelled: all stages and applications, as for C88; `Spec/SourceNumbers` reads the numbers off the outline of the source, from what is before and around each place. Proof: the places of the outline are the nodes of the parsed document (`places_tree`); C22 and C25 for the numbers among nodes, of which only nodes with a look in the source count (`expected_own`); the passes after numbering keep the numbered ancestors (`numbers_run`), so that the recursive full number is the one of the outline (`full_of`, and `full_unique`); then what the translators write for a section, a theorem, a figure, a caption, a display formula (when it is left, `translate_ended`) and a reference."
  },
  {
   "property": "C92",
   "status": "proved",
   "theorems": [
    "RSM.Program.C92_number",
    "RSM.Program.C92_reference",
    "RSM.Program.C92_prev"
   ],
   "note": "Modelled: all stages and applications, as for C91; `Spec/SourceSteps` walks the outline of the source, counting the steps directly in the same thing. Proof: the steps of the outline are the nodes of the parsed document (`steps_tree`, along which the scope of the number is carried); numbering gives the i-th step of a proof, subproof or step the number i (`NumbersRun.steps`) and the passes after it keep the proofs and steps around (`NumbersRun.classes`); a proof has no number unless the author gives one in its metadata (`Given.of_proof`, hence the hypothesis `ProofsUnnumbered`); then what the handrails translator writes when it leaves a step (`translate_ended`) and what a reference shows; for the references to earlier steps the walk also carries the steps that they can lead to (`prevs_tree`), which are those of C19."
  },
  {
   "property": "C93",
   "status": "proved",
   "theorems": [
    "RSM.Program.C93_entries",
    "RSM.Program.C93_entry"
   ],
   "note": "Modelled: all stages and applications, as for C91; the entries are compared with the headings of `Spec/SourceNumbers`, `InOrder` is in `Spec/SourceContents`. Proof: making the table gives each section of the document one reference with its number and title (`makeToc_spec`, `TocItems.targets`), which the later passes keep, as they do the number (`contents_run`); the sections of the document are places of the source (`placed_all`, in the same order), with the number that the source gives them; what the translator writes for the nodes of a document is in the order of the document (`translate_ordered`, by induction); then what is written for the table (`contents_shows`) and for a reference."
  },
  {
   "property": "C94",
   "status": "proved",
   "theorems": [
    "RSM.Program.C94_entries",
    "RSM.Program.C94_order"
   ],
   "note": "Modelled: all stages and applications, as for C91; `shownAs` (`Spec/SourceOrder`) is what C91 says of a place of the source, or the title or a heading with fixed text. Proof: the places are nodes of the document, in the same order (`placed_all`); `transform` keeps the order of the author's nodes (C31), and the translator writes for them in the order of the document (`translate_ordered`); the page that `make` writes has the body without the blanks at its ends, and no piece begins or ends with a blank (`inOrder_page`); `C94_entries`: the entries of the manuscript are those of the bibliographies in their order (`parse_entries_order`), and each with a label of its own keeps it."
  }
 ]
}