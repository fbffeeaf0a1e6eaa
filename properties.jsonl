{"id": "C01", "title": "A node's parent really lists it as a child", "statement": "After any sequence of append, prepend, remove, clear, replace_self and remove_self calls on any nodes, including calls that raise, whenever n.parent is p then n occurs in p.children.", "quantifier": "every finite history of tree-editing calls, successful or failing, from freshly constructed nodes", "why_tests_cant": "The set of call histories is infinite and failing calls may leave partial edits behind.", "anchors": ["rsm/nodes.py:NodeWithChildren.append", "rsm/nodes.py:NodeWithChildren.prepend", "rsm/nodes.py:NodeWithChildren.remove", "rsm/nodes.py:NodeWithChildren.clear", "rsm/nodes.py:Node.replace_self", "rsm/nodes.py:Node.remove_self", "rsm/nodes.py:Node.parent"]}
{"id": "C02", "title": "Editing keeps the manuscript a tree", "statement": "Parent and children agree in both directions, no node is listed twice and there is no cycle, after every history of editing calls that only insert parentless allowed nodes which are not ancestors of their new parent. Without that discipline the property fails: prepend of an existing child duplicates it, append can create a cycle, replace_self can give a node two parents, and a rejected append leaves a listed child with no parent.", "quantifier": "every finite history of disciplined editing calls; concrete histories for the failures", "why_tests_cant": "An invariant over unbounded histories; the failures need specific two-call histories.", "anchors": ["rsm/nodes.py:NodeWithChildren.append", "rsm/nodes.py:NodeWithChildren.prepend", "rsm/nodes.py:Node.replace_self"]}
{"id": "C03", "title": "Editing calls change exactly the requested position", "statement": "append puts the child last, prepend first, remove deletes only the first occurrence of that very node, replace_self puts the replacements, in order, at the position of the replaced node; siblings keep their relative order and no other node's children change.", "quantifier": "every heap of nodes, every node and every list of replacements", "why_tests_cant": "Holds for every tree shape and position.", "anchors": ["rsm/nodes.py:NodeWithChildren.append", "rsm/nodes.py:NodeWithChildren.prepend", "rsm/nodes.py:NodeWithChildren.remove", "rsm/nodes.py:Node.replace_self"]}
{"id": "C04", "title": "A failed editing call leaves the tree as it was", "statement": "When append of one node raises because the child already has a parent, or remove, replace_self or remove_self raise because there is nothing to remove, nothing changes. It is false of append, prepend and replace_self rejected by the parent-class restriction, and of append of a list with a bad element: those raise after editing.", "quantifier": "every heap and every failing call", "why_tests_cant": "Needs every failing state, not only the ones a test sets up.", "anchors": ["rsm/nodes.py:NodeWithChildren.append", "rsm/nodes.py:NodeWithChildren.remove", "rsm/nodes.py:Node.replace_self", "rsm/nodes.py:Node.remove_self"]}
{"id": "C05", "title": "Parent-class restrictions are never violated", "statement": "After any history of editing calls, a node that has a parent and whose class restricts its parents (Item, Step, Caption) has a parent of exactly one of the allowed classes.", "quantifier": "every finite history of editing calls", "why_tests_cant": "Invariant over unbounded histories.", "anchors": ["rsm/nodes.py:Node.parent", "rsm/nodes.py:Step.possible_parents", "rsm/nodes.py:Item.possible_parents", "rsm/nodes.py:Caption.possible_parents"]}
{"id": "C06", "title": "traverse visits every node once, in document order", "statement": "On a tree, traverse() terminates and yields every descendant exactly once, in document order (each node before its children, children left to right); with a condition or nodeclass it yields exactly the matching nodes in that same order.", "quantifier": "every tree of any size, depth and branching; every condition", "why_tests_cant": "Unbounded trees.", "anchors": ["rsm/nodes.py:Node.traverse"]}
{"id": "C07", "title": "get_child_by_id finds the node with that id", "statement": "After node ids are assigned, root.get_child_by_id(k) is the k-th node in document order when k is smaller than the number of nodes and None otherwise.", "quantifier": "every tree, every id", "why_tests_cant": "Unbounded trees and ids.", "anchors": ["rsm/nodes.py:Node.get_child_by_id", "rsm/transformer.py:Transformer.assign_node_ids"]}
{"id": "C08", "title": "sexp determines the class structure of a tree", "statement": "The text printed by sexp() has balanced parentheses and can be read back: parsing it gives back exactly the tree of class names, so two trees with the same sexp have the same class structure.", "quantifier": "every tree", "why_tests_cant": "A round trip over all trees.", "anchors": ["rsm/nodes.py:Node.sexp"]}
{"id": "C09", "title": "prev_sibling and next_sibling are exact", "statement": "prev_sibling() and next_sibling() return the immediate neighbours and are mutually inverse; with a class they return the nearest sibling on that side that is an instance of it, None if there is none.", "quantifier": "every tree, every node, every class", "why_tests_cant": "All positions in all sibling lists.", "anchors": ["rsm/nodes.py:Node.prev_sibling", "rsm/nodes.py:Node.next_sibling"]}
{"id": "C10", "title": "first_of_type, last_of_type and first_ancestor_of_type are exact", "statement": "first_of_type and last_of_type return the first and last child that is an instance of the class with its index; first_ancestor_of_type returns the nearest proper ancestor whose class is exactly one of the requested ones, or None.", "quantifier": "every tree, node and class or tuple of classes", "why_tests_cant": "All trees and depths.", "anchors": ["rsm/nodes.py:NodeWithChildren.first_of_type", "rsm/nodes.py:Node.first_of_type", "rsm/nodes.py:Node.last_of_type", "rsm/nodes.py:Node.first_ancestor_of_type"]}
{"id": "C11", "title": "Node equality", "statement": "Inside one tree a node compares equal to its own descendant or itself only if it is the same object, which is what the handrail computation relies on. Equality is reflexive. It is not symmetric, ignores the class and ignores the text.", "quantifier": "every tree and every pair (node, descendant)", "why_tests_cant": "Quantifies over all trees; the failures need specific pairs.", "anchors": ["rsm/nodes.py:Node.__eq__", "rsm/transformer.py:Transformer._add_handrail_depth_for_class"]}
{"id": "C12", "title": "Full numbers are the dotted chain of enclosing numbers", "statement": "full_number of a numbered node is the full number of the nearest ancestor of its numbering class followed by a dot and its own number, or just its own number when that ancestor has none; a nonum node has no full number.", "quantifier": "every tree and node", "why_tests_cant": "Unbounded nesting.", "anchors": ["rsm/nodes.py:Node.full_number"]}
{"id": "C13", "title": "Subclasses accept every meta key of their base class", "statement": "For each node class, the accepted meta keys contain those of every ancestor class and always label, types, nonum and reftext.", "quantifier": "every pair of node classes in the inheritance relation", "why_tests_cant": "A statement about the whole class table.", "anchors": ["rsm/nodes.py:Node.metakeys", "rsm/nodes.py:Node.newmetakeys"]}
{"id": "C14", "title": "The label index maps each label to its first carrier and labels become unique", "statement": "After collect_labels by a fresh Transformer, no two nodes of the tree share a nonempty label, the first node in document order with a label keeps it, later ones are emptied, the index maps each label to that first node, and nothing else in the tree changes.", "quantifier": "every tree and every assignment of labels", "why_tests_cant": "All label patterns over all trees.", "anchors": ["rsm/transformer.py:Transformer.collect_labels"]}
{"id": "C15", "title": "Labels are unique in the transformed manuscript", "statement": "After transform, no two nodes share a nonempty label, provided no author label has the form cite-N; an author label cite-0 can collide with a generated one.", "quantifier": "every tree", "why_tests_cant": "Needs all trees; the collision is a rare input.", "anchors": ["rsm/transformer.py:Transformer.transform", "rsm/transformer.py:Transformer.resolve_pending_references"]}
{"id": "C16", "title": "No pending reference survives transform", "statement": "If resolve_pending_references returns, the tree contains no PendingReference, PendingCite or PendingPrev, each was replaced in place by exactly one node, and every other node keeps its place; the final 'unresolved pending reference' error is unreachable.", "quantifier": "every tree", "why_tests_cant": "All positions and mixes of pending nodes.", "anchors": ["rsm/transformer.py:Transformer.resolve_pending_references"]}
{"id": "C17", "title": "References point at the node carrying the label", "statement": "A reference to an existing label becomes a Reference whose target is the first node in document order with that label, keeping the author's reftext; a reference to an unknown label becomes an Error showing the label and does not stop the build.", "quantifier": "every tree and every label", "why_tests_cant": "All trees and label assignments.", "anchors": ["rsm/transformer.py:Transformer._label_to_node", "rsm/transformer.py:Transformer.resolve_pending_references"]}
{"id": "C18", "title": "Citations are labelled in document order and bibliography back-links are exact", "statement": "The k-th citation in document order gets label cite-k and the back-links of each bibliography item are exactly the labels of the citations naming it, in document order. Citing a label carried by a node that is not a bibliography item raises AttributeError.", "quantifier": "every tree, any number of citations and targets", "why_tests_cant": "Unbounded numbers of citations.", "anchors": ["rsm/transformer.py:Transformer.resolve_pending_references"]}
{"id": "C19", "title": ":prev: refers to the n-th previous step", "statement": "A :prev: with count n inside a step becomes a Reference to the n-th Step sibling before the innermost enclosing step; if there are fewer than n, or there is no enclosing step, an RSMTransformerError is raised; n is the integer that the author writes, in decimal digits with an optional sign, single underscores between digits and blanks around, and n at most 0 means the enclosing step itself.", "quantifier": "every tree, every n and every way to write it", "why_tests_cant": "Unbounded n and sibling lists.", "anchors": ["rsm/transformer.py:Transformer.resolve_pending_references"]}
{"id": "C20", "title": "Every proof step is a statement, optionally followed by one subproof", "statement": "After add_necessary_subproofs each Step that had children has exactly one Statement, or one Statement and one Subproof, as children.", "quantifier": "every tree, nested steps to any depth", "why_tests_cant": "Unbounded nesting, and the traversal runs over the tree while it is being rewritten.", "anchors": ["rsm/transformer.py:Transformer.add_necessary_subproofs"]}
{"id": "C21", "title": "Adding subproofs keeps the reading order", "statement": "add_necessary_subproofs keeps every original node, and the document order of the original nodes is the same before and after; only Statement and Subproof wrappers are new.", "quantifier": "every tree", "why_tests_cant": "Unbounded trees, self-modifying traversal.", "anchors": ["rsm/transformer.py:Transformer.add_necessary_subproofs"]}
{"id": "C22", "title": "Automatic numbers count exactly the earlier items of the same kind in scope", "statement": "Each numbered node's number is one plus the number of earlier numbered nodes in document order of the same numbering family since the last numbered node of the family's scope class; nonum nodes consume no number and open no scope.", "quantifier": "every tree without an appendix marker", "why_tests_cant": "All interleavings of numbered kinds and scopes.", "anchors": ["rsm/transformer.py:Transformer.autonumber_nodes"]}
{"id": "C23", "title": "Appendix numbering uses letters and is limited to 26", "statement": "After an Appendix marker, the k-th manuscript-level numbered node of a kind gets the k-th capital letter; the 27th makes transform raise StopIteration.", "quantifier": "every tree with an appendix marker, any number of later nodes", "why_tests_cant": "The failure needs 27 items of a kind, and numbering of all kinds interacts.", "anchors": ["rsm/transformer.py:Transformer.autonumber_nodes"]}
{"id": "C24", "title": "Distinct numbered nodes of one family have distinct numbers in a scope", "statement": "Two different numbered nodes of the same family whose scope is the same numbered section never get the same number. Full numbers are not unique in general: theorems outside numbered sections can repeat.", "quantifier": "every tree", "why_tests_cant": "Pairs of nodes in all trees.", "anchors": ["rsm/transformer.py:Transformer.autonumber_nodes", "rsm/nodes.py:Node.full_number"]}
{"id": "C25", "title": "Steps of a proof are numbered consecutively", "statement": "After autonumbering the step children of each Proof or Subproof carry 1, 2, 3, ... in order.", "quantifier": "every tree", "why_tests_cant": "Unbounded number of steps.", "anchors": ["rsm/transformer.py:Transformer._autonumber_steps"]}
{"id": "C26", "title": "The table of contents mirrors the section tree", "statement": "For a manuscript whose subsections lie directly in sections and subsubsections directly in subsections, make_toc fills the first Contents with one item per section, in document order and nested as the sections are. Ill-nested subsubsections make it raise.", "quantifier": "every well-nested manuscript with any numbers of sections", "why_tests_cant": "Unbounded section trees; the algorithm keeps an implicit cursor.", "anchors": ["rsm/transformer.py:Transformer.make_toc"]}
{"id": "C27", "title": "Constructs are classified by their kind", "statement": "After transform every construct has its kind appended to its types, followed by 'assumption' exactly when the kind is not one of then, suffices, claim, claimblock, qed, prove; its earlier types stay in front.", "quantifier": "every tree", "why_tests_cant": "All trees and kinds.", "anchors": ["rsm/transformer.py:Transformer.add_keywords_to_constructs"]}
{"id": "C28", "title": "Handrail depth counts the enclosing handrails", "statement": "add_handrail_depth raises each node's handrail_depth by the number of pairs of a proper ancestor and a handrail class it is an instance of. This is the documented number of ancestors with a handrail when no ancestor is of a proper subclass of Theorem; a Lemma, Corollary or other such ancestor counts twice.", "quantifier": "every tree and node", "why_tests_cant": "Unbounded nesting, every combination of classes.", "anchors": ["rsm/transformer.py:Transformer.add_handrail_depth", "rsm/nodes.py:Node.has_handrail", "rsm/nodes.py:Node.handrail_depth"]}
{"id": "C29", "title": "Node ids are 0, 1, 2, ... in document order", "statement": "After transform the k-th node in document order has nodeid k, so ids are unique and without gaps.", "quantifier": "every tree", "why_tests_cant": "Unbounded trees.", "anchors": ["rsm/transformer.py:Transformer.assign_node_ids"]}
{"id": "C30", "title": "A Transformer may be reused", "statement": "It may not: the label index survives between calls, so transforming the same tree twice with one Transformer empties every label, and references in a second manuscript may resolve to nodes of the first.", "quantifier": "every tree with a label and every history of transform calls on one Transformer", "why_tests_cant": "A history property.", "anchors": ["rsm/transformer.py:Transformer.__init__", "rsm/transformer.py:Transformer.transform"]}
{"id": "C31", "title": "The transformer does not change the text", "statement": "The sequence of author text nodes and their text, in document order, is unchanged by the whole transform, apart from the inserted unknown-label errors.", "quantifier": "every tree", "why_tests_cant": "Composition of eight passes over all trees.", "anchors": ["rsm/transformer.py:Transformer.transform"]}
{"id": "C32", "title": "escape() removes exactly the backslashes that precede a special character", "statement": "EscapedString(s, chars).escape() deletes each backslash immediately followed by a character of chars and keeps everything else, whatever order the set of chars is iterated in, provided the backslash is not in chars; with the backslash in chars the result depends on the order.", "quantifier": "every string, every set of characters, every iteration order", "why_tests_cant": "Set iteration order depends on the process hash seed.", "anchors": ["rsm/util.py:EscapedString.escape"]}
{"id": "C33", "title": "Escaping round trip", "statement": "Putting a backslash before every special character of any text and then calling escape() gives the text back.", "quantifier": "every string and every set of special characters without the backslash", "why_tests_cant": "All strings.", "anchors": ["rsm/util.py:EscapedString.escape", "rsm/tsparser.py:DELIMS"]}
{"id": "C34", "title": "find() returns the first unescaped occurrence", "statement": "find(c) for a special character c returns the least position at or after start and before end that holds c and is not directly preceded by a backslash, or -1 if none.", "quantifier": "every string, character, start and end", "why_tests_cant": "All strings.", "anchors": ["rsm/util.py:EscapedString.find"]}
{"id": "C35", "title": "index() returns the first unescaped occurrence when there is one", "statement": "index(c) raises ValueError when c does not occur in range and returns the first unescaped occurrence when there is one. When c occurs but only escaped it does not raise: it returns -1 if the next-to-last character is not a backslash, and can run for ever if it is.", "quantifier": "every string, character, start and end", "why_tests_cant": "Nontermination cannot be tested.", "anchors": ["rsm/util.py:EscapedString.index"]}
{"id": "C36", "title": "split() cuts at every unescaped special character", "statement": "split on a special character returns one piece more than there are unescaped special characters after position 0, whichever of them was asked for. It does not keep the text: the first and last characters and the one before each separator are dropped.", "quantifier": "every string", "why_tests_cant": "All strings.", "anchors": ["rsm/util.py:EscapedString.split"]}
{"id": "C37", "title": "Every open tag is closed: the HTML output is well nested", "statement": "What translate() returns, plain or with handrails, is HTML with properly nested tags, for every manuscript that was not translated before, whose strings contain no angle brackets, whose display math sits directly in paragraphs and whose paragraphs do not end in a second display math (with handrails also: the labels of bibliography items have no quotes or line breaks and their DOIs no line breaks). The page the builder makes of such a body with a title is well nested too. The conditions are needed: texts are not escaped; a paragraph with two display formulas that ends in one yields an unmatched closing p tag; a second translation with handrails can be ill nested.", "quantifier": "every document tree, every configuration of the translators", "why_tests_cant": "All trees; every node class contributes deferred closing tags.", "anchors": ["rsm/translator.py:Translator.translate", "rsm/translator.py:Translator.visit_paragraph", "rsm/translator.py:Translator.leave_mathblock", "rsm/translator.py:EditCommand", "rsm/translator.py:HandrailsTranslator", "rsm/builder.py:SingleFileBuilder.make_main_file"]}
{"id": "C38", "title": "The deferred-command stack is used as a stack", "statement": "translate() never finds the deferred stack empty when it needs it and leaves it empty: the 'Something went wrong' error is unreachable, for every tree on which the visitor methods do not raise.", "quantifier": "every tree", "why_tests_cant": "All interleavings of deferring and non-deferring nodes.", "anchors": ["rsm/translator.py:Translator.translate", "rsm/translator.py:Translator.leave_node", "rsm/translator.py:AppendTextAndDefer", "rsm/translator.py:AppendBatchAndDefer"]}
{"id": "C39", "title": "Translating does not reorder or lose text", "statement": "The text of the Text nodes occurs in the output in document order, each exactly once, between markup that depends only on the node classes and attributes.", "quantifier": "every tree", "why_tests_cant": "All trees.", "anchors": ["rsm/translator.py:Translator.translate", "rsm/translator.py:Translator.visit_text"]}
{"id": "C40", "title": "Translating twice gives the same output", "statement": "A second translate() of the same tree with the plain Translator returns the same HTML although translate modifies node types. With the handrails translator it is false: a formula followed by a full stop renders differently the second time.", "quantifier": "every tree", "why_tests_cant": "A history property over all trees.", "anchors": ["rsm/translator.py:Translator.visit_section", "rsm/translator.py:Translator.visit_proof", "rsm/translator.py:HandrailsTranslator.visit_math"]}
{"id": "C41", "title": "A failed translation poisons the translator", "statement": "If translate() raises while commands are deferred, every later translate() call on that Translator raises RSMTranslatorError without translating.", "quantifier": "every failing tree and every later tree", "why_tests_cant": "A history property.", "anchors": ["rsm/translator.py:Translator.translate"]}
{"id": "C42", "title": "Class attributes have no repeated classes", "statement": "The class attribute written for a node lists its class name first, then its types in order, each once.", "quantifier": "every node with any list of types", "why_tests_cant": "All lists of types.", "anchors": ["rsm/translator.py:AppendNodeTag", "rsm/translator.py:_make_tag"]}
{"id": "C43", "title": "Visitor dispatch picks the nearest class with a method", "statement": "For every node class dispatch terminates and selects the visit method of the nearest class in the inheritance chain that has one; the same for leave.", "quantifier": "every node class and every set of defined visitor methods containing the one for Node", "why_tests_cant": "Quantifies over the visitor tables.", "anchors": ["rsm/translator.py:Translator.get_action_method"]}
{"id": "C44", "title": "Exactly one source must be given", "statement": "Constructing a parser application raises RSMApplicationError if and only if both or neither of path and source text are nonempty.", "quantifier": "every pair of arguments", "why_tests_cant": "All argument pairs.", "anchors": ["rsm/app.py:ParserApp._validate_srcpath_and_plain"]}
{"id": "C45", "title": "A pipeline is the composition of its tasks", "statement": "Pipeline.run feeds each task the previous result, spreading dicts as keywords and lists or tuples as positional arguments; adding a task composes it at the end; popping it restores the previous behaviour; a failing task stops the run.", "quantifier": "every list of tasks and every initial value", "why_tests_cant": "Unbounded lists of tasks.", "anchors": ["rsm/app.py:Pipeline.run", "rsm/app.py:Pipeline.add_task", "rsm/app.py:Pipeline.pop_task"]}
{"id": "C46", "title": "Only parse errors are turned into an empty result", "statement": "RSMApp.run returns what the pipeline returns; if a task raises RSMParserError it logs a message at level ERROR and returns the empty string; every other exception goes through.", "quantifier": "every pipeline and every outcome of its tasks", "why_tests_cant": "All outcomes.", "anchors": ["rsm/app.py:RSMApp.run"]}
{"id": "C47", "title": "make honours its handrails and lint flags", "statement": "It does not: make(lint=b, handrails=h) never runs the linter, uses the handrails translator exactly when b is true, and ignores h.", "quantifier": "all flag combinations", "why_tests_cant": "Concerns which tasks run for all argument combinations.", "anchors": ["rsm/app.py:make", "rsm/app.py:FullBuildApp.__init__", "rsm/app.py:ProcessorApp.__init__"]}
{"id": "C48", "title": "Each log message is emitted once and the level is respected", "statement": "After any number of logger configurations there is exactly one handler, and a record is emitted exactly when its level is at least max(level, DEBUG) of the last configuration.", "quantifier": "every history of configurations and every record level", "why_tests_cant": "A history property.", "anchors": ["rsm/rsmlogger.py:config_rsm_logger", "rsm/rsmlogger.py:_set_level"]}
{"id": "C49", "title": "Lint messages are shown when the linter runs", "statement": "A lint run shows all lint messages; a processing run with the linter on and the default log level shows none of them.", "quantifier": "every log level", "why_tests_cant": "All levels and histories.", "anchors": ["rsm/rsmlogger.py:config_rsm_logger", "rsm/linter.py:Linter.__init__", "rsm/app.py:LinterApp.__init__", "rsm/app.py:ProcessorApp.__init__"]}
{"id": "C50", "title": "The linter reports exactly the problems and leaves the manuscript alone", "statement": "lint() returns the same tree unmodified and reports a missing manuscript title, then every section without label, then every display formula whose parent is not a paragraph, each once, in document order, with its one-based position, and nothing else.", "quantifier": "every tree", "why_tests_cant": "All trees.", "anchors": ["rsm/linter.py:Linter"]}
{"id": "C51", "title": "Text normalisation leaves no adjacent text nodes", "statement": "After text normalisation no two consecutive siblings are both text nodes.", "quantifier": "every tree", "why_tests_cant": "All trees, self-modifying traversal.", "anchors": ["rsm/tsparser.py:_normalize_text"]}
{"id": "C52", "title": "Text normalisation preserves the visible text", "statement": "Normalisation changes only white space and escaping backslashes: the sequence of non-blank characters of the unescaped text, in document order, is the same before and after, apart from inserted construct keywords, provided no verbatim text directly adjoins a text that is not verbatim. A verbatim text that directly follows a plain text is unescaped like that text.", "quantifier": "every tree and text", "why_tests_cant": "All trees and texts.", "anchors": ["rsm/tsparser.py:_normalize_text"]}
{"id": "C53", "title": "The gathered log keeps every accepted record until flushed", "statement": "GatherHandler keeps exactly the records whose level is in its set, in order; flush with a target passes each to the target exactly once and empties the buffer.", "quantifier": "every history of emit and flush calls", "why_tests_cant": "A history property.", "anchors": ["rsm/rsmlogger.py:GatherHandler"]}
{"id": "C54", "title": "The page title is the manuscript title", "statement": "The built page's title is the text inside the first <h1>...</h1> of the body that is on one line (the shortest such text), and empty if there is none; the rest of the page is fixed but for the body. For a manuscript with a one-line title, translated by the plain translator, this is the manuscript's title; with the handrails translator the same holds unless the source shown in the page has a heading of its own, which then takes over.", "quantifier": "every body string, and every manuscript tree", "why_tests_cant": "All strings.", "anchors": ["rsm/builder.py:SingleFileBuilder.make_main_file", "rsm/builder.py:SingleFileBuilder"]}
{"id": "C55", "title": "Assets of the page are found and copied", "statement": "The required assets are exactly the values of the src attributes of the body, in order; building succeeds exactly if all of them can be read and have a file name; afterwards each is present under static/ by file name with its contents, unless a later asset has the same file name; the page and the default scripts and style sheets are present too, and nothing else is.", "quantifier": "every body string and file system", "why_tests_cant": "All strings and asset lists.", "anchors": ["rsm/builder.py:BaseBuilder", "rsm/builder.py:FullBuilder"]}
{"id": "C56", "title": "What the commands print and return", "statement": "rsm-render prints exactly the HTML that render returns, unless it is empty or the run is silent; rsm-lint and rsm-make print nothing; whenever a command returns its exit status is 0, even after a parse error, for which nothing is printed.", "quantifier": "every command line and every outcome of the stages", "why_tests_cant": "All outcomes of all stages, including the failing ones.", "anchors": ["rsm/cli.py:main", "rsm/cli.py:render", "rsm/cli.py:lint", "rsm/cli.py:make"]}
{"id": "C57", "title": "Text normalisation removes only merged texts", "statement": "Normalisation removes exactly the text nodes that directly follow a text node; every other node stays, in the same document order and under the same parent, with all its attributes, except that texts may change and that section and manuscript titles are unescaped. Nodes outside the tree are untouched.", "quantifier": "every tree", "why_tests_cant": "All trees; the traversal edits the tree it walks.", "anchors": ["rsm/tsparser.py:_normalize_text"]}
{"id": "C58", "title": "Text normalisation adds only blanks and keywords", "statement": "Every node that normalisation adds is a text consisting of one blank, a keyword, or the text of an added keyword.", "quantifier": "every tree", "why_tests_cant": "All trees.", "anchors": ["rsm/tsparser.py:_normalize_text"]}
{"id": "C59", "title": "Inline nodes are set apart", "statement": "After normalisation no two consecutive siblings are both a span, a construct or a piece of inline mathematics.", "quantifier": "every tree", "why_tests_cant": "All sequences of siblings.", "anchors": ["rsm/tsparser.py:_normalize_text"]}
{"id": "C60", "title": "Texts are trimmed", "statement": "After normalisation every text child has at most one blank, and no other white space, at either end; the first text of a node that is not a construct has no white space at its beginning and the last one none at its end.", "quantifier": "every tree and text", "why_tests_cant": "All texts and all positions.", "anchors": ["rsm/tsparser.py:_normalize_text"]}
{"id": "C61", "title": "Constructs open with their keyword", "statement": "After normalisation the first child of every construct is a new keyword node whose only child is a text, the fixed keyword of its kind; a text that follows it begins with a blank. A span that follows it is not set apart from it.", "quantifier": "every tree", "why_tests_cant": "All trees and kinds.", "anchors": ["rsm/tsparser.py:_normalize_text"]}
{"id": "C62", "title": "Normalisation ends, and fails only on unknown kinds", "statement": "Normalisation of a tree always ends although it adds nodes while it walks; it succeeds, leaving a tree with the same root, if every construct has one of the fourteen known kinds, and raises KeyError otherwise.", "quantifier": "every tree", "why_tests_cant": "Termination of a traversal that adds nodes, for all trees.", "anchors": ["rsm/tsparser.py:_normalize_text"]}
{"id": "C63", "title": "Parsing returns one proper document", "statement": "When parsing succeeds, the result is a manuscript whose nodes form a tree: every node below it has as parent the node that lists it, and no node occurs twice. The manuscript holds the whole source text, the parser object keeps it as its result, and objects made before are as they were.", "quantifier": "every syntax tree of a source and every earlier state of the parser", "why_tests_cant": "Trees of unbounded size and depth.", "anchors": ["rsm/tsparser.py:TSParser.parse", "rsm/tsparser.py:_abstractify", "rsm/tsparser.py:_normalize_text"]}
{"id": "C64", "title": "Parsing loses, adds and reorders no text", "statement": "When parsing succeeds, the texts of the manuscript in document order show, up to white space, exactly what the parts of the source show in their order: texts without the escaping backslashes, verbatim parts as they are, and a message for each syntax error.", "quantifier": "every syntax tree of a source in which a verbatim part has no sibling parts inside it", "why_tests_cant": "All nestings of parts.", "anchors": ["rsm/tsparser.py:TSParser.parse", "rsm/tsparser.py:_abstractify", "rsm/tsparser.py:_normalize_text"]}
{"id": "C65", "title": "Parsing ends with a manuscript or a known exception", "statement": "Parsing any syntax tree ends; it returns a manuscript or raises one of a fixed list of exceptions. A tree without a manuscript is never accepted. Exceptions other than RSMParserError do escape for some sources.", "quantifier": "every syntax tree", "why_tests_cant": "Termination of a loop over a stack, for all trees.", "anchors": ["rsm/tsparser.py:TSParser.parse", "rsm/tsparser.py:_abstractify", "rsm/tsparser.py:_normalize_text"]}
{"id": "C66", "title": "Bibliographies hold their entries", "statement": "The bibliographies of the parsed manuscript are children of the manuscript, one for each in the source, in order. Each holds in order the entries listed after it and before the next bibliography, with label, kind and fields as in the source (the last value of each field). Entries before any bibliography are dropped.", "quantifier": "every syntax tree of a source", "why_tests_cant": "All numbers and positions of bibliographies and entries.", "anchors": ["rsm/tsparser.py:TSParser.parse", "rsm/tsparser.py:_abstractify", "rsm/tsparser.py:_normalize_text"]}
{"id": "C67", "title": "Parser warnings are exactly the syntax problems", "statement": "The parser warns, in source order, exactly of each syntax error in a part, each list of entries before any bibliography, and each syntax error in another list of entries.", "quantifier": "every syntax tree of a source", "why_tests_cant": "All trees.", "anchors": ["rsm/tsparser.py:TSParser.parse", "rsm/tsparser.py:_abstractify", "rsm/tsparser.py:_normalize_text"]}
{"id": "C68", "title": "The manuscript has the outline of the source", "statement": "Apart from texts, keywords and bibliographies, the nodes of the parsed manuscript are the parts of the source, nested and ordered as there, each with the class of its tag, its place, and the attributes that its meta region gives: label, title, types, nonum, reftext, and those of single classes such as date, author name, keywords, language and path (the last value of each). A reference has the target and the text written in it, a citation the list of labels, a construct its kind, a strong or emphasised span its style.", "quantifier": "every syntax tree of a source", "why_tests_cant": "All nestings of blocks.", "anchors": ["rsm/tsparser.py:TSParser.parse", "rsm/tsparser.py:_abstractify", "rsm/tsparser.py:_normalize_text", "rsm/tsparser.py:_parse_meta_into_dict", "rsm/nodes.py:ingest_dict_as_meta"]}
{"id": "C69", "title": "A failed parse does not damage earlier results", "statement": "When parsing fails, the parser still holds the manuscript of its previous successful parse, and (unless the failure is a KeyError) that manuscript and all other earlier objects are unchanged.", "quantifier": "every syntax tree of a source and every earlier state of the parser", "why_tests_cant": "All failure points.", "anchors": ["rsm/tsparser.py:TSParser.parse", "rsm/tsparser.py:_abstractify", "rsm/tsparser.py:_normalize_text"]}
{"id": "C70", "title": "Every well-formed source is parsed", "statement": "A source in which all tags are known, meta pairs and bibliography fields have known keys and the right number of values, blocks have tags, cells, paragraphs and special blocks are not empty, verbatim parts have their text, references have targets, constructs have known tags and nodes are below allowed parents is parsed without an exception.", "quantifier": "every well-formed syntax tree", "why_tests_cant": "All sizes and nestings of sources.", "anchors": ["rsm/tsparser.py:TSParser.parse", "rsm/tsparser.py:_abstractify", "rsm/tsparser.py:_normalize_text"]}
{"id": "C71", "title": "Normalisation neither joins nor splits words", "statement": "Normalising the texts of a document keeps the words of every node: the sequences of characters and inline nodes between white space are the same before and after, where before there is taken to be white space between two adjacent texts and between two adjacent inline nodes. Keywords of constructs are not counted.", "quantifier": "every document tree", "why_tests_cant": "All sequences of texts and inline nodes, all nestings and all placements of white space and escapes.", "anchors": ["rsm/tsparser.py:_normalize_text"]}
{"id": "C72", "title": "The manuscript shows the words of the source", "statement": "Every node of the parsed manuscript has exactly the words written in its part of the source, in order, with its inline nodes where they are written; a line break between two neighbours counts as white space, and a formula next to a bracket stays next to it. This holds when verbatim content is alone in its part.", "quantifier": "every syntax tree of a source", "why_tests_cant": "All sources: all line breaks and all sequences of texts and inline nodes.", "anchors": ["rsm/tsparser.py:TSParser.parse", "rsm/tsparser.py:_abstractify", "rsm/tsparser.py:_normalize_text"]}
{"id": "C73", "title": "Verbatim content is kept to the letter", "statement": "Formulas, code and algorithms hold exactly what is written in the source: characters, blanks, backslashes and line breaks, except for white space at the two ends; code has the language given for it; in the order of the source, and nothing else in the manuscript is verbatim. In particular normalisation does not squeeze blanks in them or remove backslashes from them.", "quantifier": "every syntax tree of a source in which verbatim content is alone in its part, and every document tree in which verbatim texts are only children of nodes that are not constructs", "why_tests_cant": "All contents, and all neighbours a verbatim node may have.", "anchors": ["rsm/tsparser.py:TSParser.parse", "rsm/tsparser.py:_normalize_text"]}
{"id": "C74", "title": "An internal link leads to what it names", "statement": "On the rendered page, for every reference of the author to a label that a node carries there is a link to that label showing the author's text (or the target's reference text), and there is an element with that label as its id; for every label of the n-th citation there is a link to the entry, the entry has its label as id, the citation has the id cite-n, and the plain page links back from the entry to the citation. The exception are classes of nodes without an element of their own, such as captions: links to them lead nowhere.", "quantifier": "every document tree, every reference and citation in it, both translators (links back: the plain one)", "why_tests_cant": "All documents, all places of the reference and of its target, all classes of targets, and the composition of transform and translate.", "anchors": ["rsm/transformer.py:Transformer.resolve_pending_references", "rsm/transformer.py:Transformer.collect_labels", "rsm/translator.py:Translator.visit_reference", "rsm/translator.py:Translator.visit_cite", "rsm/translator.py:Translator.visit_bibitem", "rsm/translator.py:HandrailsTranslator", "rsm/translator.py:_make_tag"]}
{"id": "C75", "title": "Transformation ends in one predictable way", "statement": "Whether transforming a document succeeds, and if not with which exception it ends, is determined by the document as follows: the exception of the first reference in document order that cannot be resolved (a citation or reference without a target attribute, no suitable previous element, a bad count, ...); otherwise an assertion error if a subproof is not the last child of its step; otherwise StopIteration if more than 26 elements of one kind are numbered after an appendix marker; otherwise an assertion error if a construct has no kind; otherwise it succeeds. No other exception is possible.", "quantifier": "every document tree whose errors carry no label and whose sections are nested properly if it has a table of contents", "why_tests_cant": "All documents, all combinations of causes and their precedence; and the absence of every other exception.", "anchors": ["rsm/transformer.py:Transformer.transform", "rsm/transformer.py:Transformer.resolve_pending_references", "rsm/transformer.py:Transformer.autonumber_nodes", "rsm/transformer.py:Transformer.add_necessary_subproofs", "rsm/transformer.py:Transformer.make_toc", "rsm/transformer.py:Transformer.add_keywords_to_constructs"]}
{"id": "C76", "title": "What parsing yields is what transforming expects", "statement": "The manuscript parsed from a source meets every assumption of the transformation: nothing stands in a step that may not, every construct has a kind, no pending reference is already resolved, syntax errors carry no label unless one is written on them, and a source with properly nested sections gives such a manuscript. So whether transforming a parsed source succeeds, and with which exception it ends otherwise, is determined by the manuscript: the first reference that cannot be resolved, a subproof that is not the last child of its step, or more than 26 lettered elements of a kind; no other exception is possible.", "quantifier": "every concrete syntax tree of a source file that is parsed without an exception, on any heap of earlier documents", "why_tests_cant": "All sources, and the composition of two stages: that no parsed manuscript violates an assumption of the next stage.", "anchors": ["rsm/tsparser.py:TSParser.parse", "rsm/transformer.py:Transformer.transform"]}
{"id": "C77", "title": "The page shows the text of the source", "statement": "If a source without syntax errors and programs is parsed, transformed and translated, then the page consists of markup and, between it, texts: keywords of constructs, and texts that show together, in order and but for white space, exactly what the source shows. No text is lost, doubled or moved by any stage.", "quantifier": "every source whose three stages succeed; both translators, the one with handrails if no formula is followed by a text that begins with a full stop", "why_tests_cant": "All sources, and the composition of parsing, normalisation, transformation and translation.", "anchors": ["rsm/tsparser.py:TSParser.parse", "rsm/transformer.py:Transformer.transform", "rsm/translator.py:Translator.translate"]}
{"id": "C78", "title": "Translation ends in one predictable way", "statement": "A document is translated to a page exactly if no node of it has an obstacle, and otherwise the exception is that of an obstacle of the first such node in document order. Obstacles are: a display formula outside of a paragraph (plain translator), an external link without target, an unresolved reference, a reference or citation to an element whose reference-text template cannot be filled, a bibliography entry with a year that is a number (as it is by default), a caption without parent, and, with handrails, an author without data, an element with a menu or number whose own template cannot be filled, and a table of contents with a reference to something other than a section. No other exception is possible.", "quantifier": "every document tree whose references lead into it (or to unknown-entry placeholders) and in which no display formula stands directly in a step; both translators", "why_tests_cant": "All documents, all positions and combinations of obstacles, and the absence of every other exception, including all those of the leave methods and the stack of deferred commands.", "anchors": ["rsm/translator.py:Translator.translate", "rsm/translator.py:Translator", "rsm/translator.py:HandrailsTranslator", "rsm/nodes.py:Node.reftext"]}
{"id": "C79", "title": "A page of every source that is as it should be", "statement": "What transforming a parsed manuscript leaves is what translating expects: references and citations lead to nodes of the document or to unknown-entry placeholders, and steps are wrapped. Hence a source gives a page, without any exception in parsing, transforming or translating, if it is well formed, its sections are nested properly, display formulas stand in paragraphs, external links have a target, bibliography entries have a year, reference texts can be formed, authors have data (with handrails), citations are of bibliography entries, every reference to an earlier step stands in a step with enough steps before it, nothing comes after a subproof in its step, and at most 26 sections, tables, algorithms and bibliography entries follow an appendix marker.", "quantifier": "every concrete syntax tree of a source file that meets these conditions, on any heap of earlier documents; both translators", "why_tests_cant": "All sources, and the composition of three stages: that no stage leaves what the next one fails on.", "anchors": ["rsm/tsparser.py:TSParser.parse", "rsm/transformer.py:Transformer.transform", "rsm/translator.py:Translator.translate"]}
{"id": "C80", "title": "The page is the nested rendering of the document", "statement": "What the plain translator writes is a function of the document that can be described node by node: the page of a node is what stands before its children, the pages of the children in order, and what stands after them; and these two texts depend only on the node, its class and attributes, its position, its full number and the texts of references. In particular the page of every part of the document is a connected piece of the page, the heading of a numbered section is its full number and its title at its level, a theorem has its label, number and title, a reference is a link with the text of its target. The way translation is organised (commands, deferred commands, a stack, notes on nodes) has no other effect on the page.", "quantifier": "every document tree on a heap whose references lead into it, without unresolved references, in particular whatever parsing and transforming a source gives; every syntax highlighter", "why_tests_cant": "All documents, that is all nestings of all classes of nodes; the translator keeps a stack and edits the nodes while it runs.", "anchors": ["rsm/translator.py:Translator.translate", "rsm/translator.py:Translator", "rsm/nodes.py:Node.full_number", "rsm/nodes.py:Node.reftext"]}
{"id": "C81", "title": "The page with handrails is the nested rendering of the document", "statement": "What the translator with handrails writes is a function of the document that can be described node by node, as for the plain page (C80): every part that has a handrail is a box with a zone to collapse it, a menu with its name and an entry to copy its link (enabled exactly if it has a label), a border, its content, and an info zone with its number; headings stand in handrails of their own; a table of contents has a map of the sections; a full stop after a formula in the text is written with the formula and only there; the link of a bibliography entry stands in its info zone; everything else is written as on the plain page.", "quantifier": "every document tree on a heap whose references lead into it, without unresolved references, whose bibliography entries hold no tags, in particular whatever parsing and transforming a source with such entries gives; every syntax highlighter; with and without the source on the page", "why_tests_cant": "All documents, that is all nestings of all classes of nodes; the translator rewrites batches of commands made by the plain one, searches the text of entries with regular expressions, and edits nodes that come later.", "anchors": ["rsm/translator.py:HandrailsTranslator", "rsm/translator.py:Translator.translate"]}
{"id": "C82", "title": "A source without angle brackets gives a well-nested page", "statement": "If no text of a source has angle brackets, and its display formulas stand directly in paragraphs with at most one in each, then the page that is made of it by parsing, transforming and translating is well-nested HTML: every element that is opened is closed, in the right order. With handrails the labels and DOIs of bibliography entries must be such that they can be written in an attribute. If the source is moreover of the kind that gives a page (C79), the page exists and is well nested. Both conditions are needed: with a tag in a text, or with two display formulas in a paragraph, the page can be ill nested.", "quantifier": "every concrete syntax tree without angle brackets and with display formulas as said, every state of the parser, both translators, with and without the source on the page, every syntax highlighter that returns well-nested HTML", "why_tests_cant": "All sources, that is all nestings of all blocks and inlines with all texts; three stages write, move, copy and format texts of nodes, any of which could bring a bracket to the page or leave an element open.", "anchors": ["rsm/tsparser.py:TSParser.parse", "rsm/transformer.py:Transformer.transform", "rsm/translator.py:Translator.translate", "rsm/translator.py:HandrailsTranslator"]}
{"id": "C83", "title": "render, lint and make run the stages once, in order, and log exactly their messages", "statement": "render(source or path) reads the text (from the file if a path is given), parses it, transforms the manuscript and translates it, each once and in this order, and returns the page. make does the same (with handrails exactly if lint is set, and with the source), then builds the web manuscript and writes its files to the current directory; it returns None. lint parses, transforms and lints and returns the manuscript unchanged. If a stage raises, later stages do not run and the exception is raised, except that an error of the parser (RSMParserError) makes the result the empty text. What is written to the log is, in order, those of the messages of the stages that have the level asked for, in the format asked for, and nothing else. The result, the exception and what is left of nodes and files depend on nothing but the text of the source, the nodes and files there were and the options: it makes no difference whether the text is given or read from a file, how the run is logged, or what was logged before. If the file is not there an exception is raised and nothing is changed.", "quantifier": "every source text or path, every content of the current directory, every syntax tree the grammar makes of the text, every history of nodes made before, every state of the logger, every level, known format and option", "why_tests_cant": "Each combination of source, path, options, earlier runs and failing stage would have to be tried; that an outcome does not depend on the log or on earlier runs is a statement about all pairs of runs.", "anchors": ["rsm/app.py:render", "rsm/app.py:lint", "rsm/app.py:make", "rsm/app.py:RSMApp.run", "rsm/reader.py:Reader.read", "rsm/writer.py:Writer.write"]}
{"id": "C84", "title": "What render and lint give for every source", "statement": "Whatever the source, render ends in one of three ways: it returns a page, which is not empty and begins with the body; it returns the empty text, and then the parser raised RSMParserError; or it raises one of the exceptions listed. A well-formed source as described in C79 gives a page, and if nothing in it can be taken for a tag (C82) the page is well nested; no file is changed. The page is the nested rendering (C80, C81) of the document that transform leaves. For every source that is compiled, lint returns the manuscript and logs the warnings of the parser and the transformer and then one message for each problem of the manuscript: in the format \"lint\" a line with its place and the problem; in the format \"rsm\", the default, none of these messages can be formatted.", "quantifier": "every source text or path, every syntax tree with a single root that has no label on a syntax error and well-nested sections if it has a table of contents, every forest of nodes made before, every state of the logger, both translators, all options", "why_tests_cant": "All sources with all nestings, together with everything that was made or logged before in the same process.", "anchors": ["rsm/app.py:render", "rsm/app.py:lint", "rsm/tsparser.py:TSParser.parse", "rsm/transformer.py:Transformer.transform", "rsm/translator.py:Translator.translate", "rsm/linter.py:Linter.lint"]}
{"id": "C85", "title": "make writes the page that render gives, or nothing", "statement": "If make returns None then index.html is the HTML file of the page that render gives for the same source (with handrails exactly if lint is set, and with the source); every file the page refers to exists and has been copied to static/ under its name (unless a later one has the same name); the default files of the package are in static/ (unless one of those has the same name); and every file other than index.html and those in static/ is as it was. In every other case (an exception, or the empty text because of an error of the parser) no file is changed at all. If a file the page refers to is missing, make raises an exception; any text src=\"...\" on the page counts as a reference.", "quantifier": "every source text or path, every content of the current directory, every syntax tree, every history of nodes made before, all options", "why_tests_cant": "All sources and all contents of the directory; that nothing else is touched is a statement about every path.", "anchors": ["rsm/app.py:make", "rsm/builder.py:FullBuilder.build", "rsm/writer.py:Writer.write"]}
{"id": "C86", "title": "Every warning has a reason, and every reason gives a warning", "statement": "When render gives a page, the warnings it logs are determined by the source and the manuscript, in this order. From the parser: each syntax error in a part, each list of bibliography entries before any bibliography, each error in another list. From transform: one for each node whose label an earlier node has too; then, for each reference in document order, one for each label it asks for that no node has, or, for a :prev:, one if the step it leads to has no label (also if it lost it to an earlier node); then one for each table of contents but the first. From the translator: for each entry of the bibliography in document order, that it is an article without journal, a book without publisher, has no year, has no DOI; with handrails also that it has no link. There are no other warnings, and none of these is left out.", "quantifier": "every source that gives a page (single root, no label on a syntax error, well-nested sections if there is a table of contents), every forest of nodes made before, both translators; for the link warning with handrails, entries without tags in them", "why_tests_cant": "That no warning is missing, superfluous or out of order is a statement about all documents and all combinations of defects.", "anchors": ["rsm/transformer.py:Transformer.collect_labels", "rsm/transformer.py:Transformer.resolve_pending_references", "rsm/transformer.py:Transformer.make_toc", "rsm/translator.py:Translator.visit_bibitem", "rsm/translator.py:HandrailsTranslator.visit_bibitem", "rsm/tsparser.py:TSParser.parse"]}
{"id": "C87", "title": "Earlier runs in the same process do not matter", "statement": "render, make and lint give the same as they would in a new process, whatever was parsed, transformed, edited or logged before: the same value or exception, the same files, the same lines in the log. The nodes they make are the same too, up to the addresses of the objects. So for each source (and, for make, each content of the current directory) and each choice of options there is one result, which every call gives.", "quantifier": "every source text or path, every syntax tree, every set of nodes made before (well-formed or not), every state of the logger, both translators, all options; runs whose loops end within the bound of the model in a new process (shown for every source as in C84)", "why_tests_cant": "All histories of a process, with all the nodes and the state of the logger they leave behind; a hidden dependence shows only after particular histories.", "anchors": ["rsm/app.py:render", "rsm/app.py:lint", "rsm/app.py:make", "rsm/nodes.py:Node", "rsm/tsparser.py:TSParser.parse", "rsm/transformer.py:Transformer.transform", "rsm/translator.py:Translator.translate", "rsm/rsmlogger.py:config_rsm_logger"]}
{"id": "C88", "title": "The links of a source lead to what they name", "statement": "On every page that a source gives, whether render gives it or make writes it: a label that the source gives to something with an element of its own is the id of an element; for each reference in the source to such a label there is a link to that id, with the text that the reference gives, if any; for each reference to a label that the source gives to nothing, the page says that the label is unknown; and for each label in the n-th citation that the source gives to something there is a link to that id, the citation has the id cite-n, and without handrails there is a link back to it; for each label in a citation that the source gives to nothing, there is a link that says that the label is unknown; and, in a source without an appendix, in which no entry is outside of the bibliographies or says how it is cited, the link for a label that only entries have shows the position of the first entry with that label; and, without handrails, the links back of such an entry are to the citations of its label, numbered from 1 in the order of the source.", "quantifier": "every source text or path and every syntax tree in which no text or syntax error has a label and, if there is a table of contents, the sections are well nested and nothing is in the table, every process history, both translators, all options", "why_tests_cant": "All documents: whether a reference resolves depends on all labels of the document and passes through four stages, each of which may drop or rename a label.", "anchors": ["rsm/app.py:render", "rsm/app.py:make", "rsm/tsparser.py:TSParser.parse", "rsm/transformer.py:Transformer.resolve_pending_references", "rsm/translator.py:Translator.visit_reference", "rsm/translator.py:Translator.visit_cite", "rsm/translator.py:Translator.visit_error", "rsm/builder.py:FullBuilder"]}
{"id": "C89", "title": "What the commands print, write and return", "statement": "For each source, with and without handrails, there is one result of render, and rsm-render prints exactly that page and returns 0, whatever its other options are and whatever there was before; with --silent, or if the parser fails, it prints nothing; an exception of render ends it; no file is changed. rsm-make prints nothing; it writes index.html with the page that render gives with handrails and with the source and otherwise changes files in static/ only and returns 0, or the parser failed and no file is changed and it returns 0, or an exception ends it and no file is changed; it is ended by an exception if the page refers to a file that is not there. rsm-lint prints nothing and changes no file; for a source that is compiled it returns 0 and the log gets the warnings and one line for each problem. If the source file is not there, each command is ended by an exception and no file is changed.", "quantifier": "every parsed command line (without --serve), every source, syntax tree and content of the current directory (sources as in C84), every process history (rsm-lint: after which the nodes form a forest), all log formats", "why_tests_cant": "All combinations of options, sources and files in the directory; that nothing else is written or printed is a statement about every file and every input.", "anchors": ["rsm/cli.py:main", "rsm/cli.py:render", "rsm/cli.py:lint", "rsm/cli.py:make", "rsm/app.py:render", "rsm/app.py:lint", "rsm/app.py:make", "rsm/writer.py:Writer"]}
{"id": "C90", "title": "Sources that are refused", "statement": "If a reference to an earlier step stands in no step, or in one with fewer steps before it than it goes back, or says no number, or if more than 26 sections, tables or algorithms come between one appendix marker and the next (or the end), then no page is made: render, make and lint raise the same exception (or give the empty text if the parser has given up), and no file is changed. If citations are of entries, nothing follows a subproof in a step and there are at most 26 entries or no appendix, these are the only reasons why transform fails on a parsed source: it raises RSMTransformerError or ValueError for the references and otherwise StopIteration for the letters. A bibliography of more than 26 entries after an appendix marker is refused as well.", "quantifier": "every source and syntax tree (sections well nested if there is a table of contents, no label on a syntax error), every history after which the nodes form a forest, all options and log formats", "why_tests_cant": "That every such source is refused, and no other, is a statement about all nestings of steps and all numbers of sections.", "anchors": ["rsm/transformer.py:Transformer.resolve_pending_references", "rsm/transformer.py:Transformer.autonumber", "rsm/transformer.py:Transformer.transform", "rsm/app.py:render", "rsm/app.py:make", "rsm/app.py:lint"]}
{"id": "C91", "title": "The numbers on a page are those of the source", "statement": "On every page that a source gives, whether render gives it or make writes it: every section, subsection and subsubsection has a heading with its number and its title, or its title alone if the author says that it has no number; every theorem, lemma and so on shows what it is and its number, unless it has none; a figure has an image with its number as the alternative text, and a caption shows what it belongs to and its number (the word None for either if the author says that it has no number); with handrails a display formula with a number shows it; and a reference to something with a number, if neither the reference nor its target gives a text, is a link that shows what the target is and its number (the word None if the author says that the target has no number). The number is read off the source: it counts what is of the same kind and has a number since the last numbered section (or subsection) or since the start of the manuscript or of the appendix, in letters for what is numbered throughout the manuscript after an appendix marker, and comes after the number of the section around it, if that has one.", "quantifier": "every source text or path and every syntax tree in which no text or syntax error has a label and, if there is a table of contents, the sections are well nested and nothing is in the table, every section, theorem and reference in it, every process history, both translators, all options", "why_tests_cant": "All documents: a number depends on everything before it in the source, is computed after other passes have changed the tree, and is read again by the translator through the chain of parents.", "anchors": ["rsm/app.py:render", "rsm/app.py:make", "rsm/tsparser.py:TSParser.parse", "rsm/transformer.py:Transformer.autonumber_nodes", "rsm/nodes.py:Node.full_number", "rsm/nodes.py:Node.reftext", "rsm/translator.py:Translator.visit_section", "rsm/translator.py:Translator.visit_theorem", "rsm/translator.py:Translator.visit_reference", "rsm/translator.py:Translator.visit_figure", "rsm/translator.py:Translator.visit_caption", "rsm/translator.py:HandrailsTranslator.leave_mathblock"]}
{"id": "C92", "title": "The numbers of the steps of proofs are those of the source", "statement": "On every page that a source gives, whether render gives it or make writes it: with handrails every step of a proof that is to have a number shows it in angle brackets, and a reference to the label of one such step, if neither the reference nor the step gives a text, is a link to that label which shows the word Step and the number in angle brackets. A reference to an earlier step that goes back k steps is a link to the label of the k-th step before the innermost step around it, counting only the steps directly in the same proof, subproof or step; without a text of its own it shows the word Step and the number of that step in angle brackets (the word None if it has none). The number is read off the source: it is the position of the step among the steps directly in the same proof, subproof or step, counting also those without a number, after the number of the step around it, if there is one with a number.", "quantifier": "every source text or path and every syntax tree in which no text or syntax error has a label, no proof is given a number in its metadata and, if there is a table of contents, the sections are well nested and nothing is in the table, every step and reference in it, every process history, all options", "why_tests_cant": "All documents: steps nest in each other to any depth, a number is put together from those of all steps around it after other passes have changed the tree, and the translator reads it again through the chain of parents when it leaves the step.", "anchors": ["rsm/app.py:render", "rsm/app.py:make", "rsm/tsparser.py:TSParser.parse", "rsm/transformer.py:Transformer.autonumber_nodes", "rsm/nodes.py:Node.full_number", "rsm/nodes.py:Step", "rsm/translator.py:HandrailsTranslator.leave_step", "rsm/translator.py:Translator.visit_reference", "rsm/transformer.py:Transformer.resolve_pending_references"]}
{"id": "C93", "title": "The table of contents of a page has the sections of the source", "statement": "On every page that a source with a table of contents gives, whether render gives it or make writes it, every section, subsection and subsubsection of the source has an entry, and the entries stand on the page below the heading \"Table of Contents\", in the order of the source: a link that shows what its heading shows, that is its title after the number that it has in the source, or its title alone if it is without a number. The link leads to the label of the section; if something earlier in the source has the same label it may lead to nothing, and so it does if the section has no label.", "quantifier": "every source text or path and every syntax tree in which no text or syntax error has a label, a table of contents is present, the sections are well nested and nothing is in the table, every section in it with a number or a title, every process history, all options", "why_tests_cant": "All documents: sections nest to any depth, are numbered in the appendix or not at all, and the table is made after numbering and kept by passes that change the tree after it.", "anchors": ["rsm/app.py:render", "rsm/app.py:make", "rsm/tsparser.py:TSParser.parse", "rsm/transformer.py:Transformer.make_toc", "rsm/transformer.py:Transformer.autonumber_nodes", "rsm/nodes.py:Node.full_number", "rsm/translator.py:Translator.visit_reference"]}
{"id": "C94", "title": "What a page shows is in the order of the source", "statement": "On every page that a source gives, whether render gives it or make writes it, the title, the headings of abstracts, of bibliographies and of sections, subsections and subsubsections with their numbers and titles, what theorems, lemmas and so on show as their kind and number, the images of figures with their files and numbers, and the kinds and numbers before captions stand one after the other in the order that they have in the source; and so do the entries of the bibliographies, if each has a label of its own and none is outside of them.", "quantifier": "every source text or path and every syntax tree in which no syntax error has a label and, if there is a table of contents, the sections are well nested and nothing is in the table, all its sections, theorems, figures, captions, abstracts and bibliographies, every process history, all options", "why_tests_cant": "All documents: three stages rebuild, insert, move and remove nodes of a tree of any depth, and the translator writes with a stack of postponed commands; nothing of the author may change places in any of this.", "anchors": ["rsm/app.py:render", "rsm/app.py:make", "rsm/tsparser.py:TSParser.parse", "rsm/transformer.py:Transformer.transform", "rsm/translator.py:Translator.translate", "rsm/translator.py:Translator.visit_section", "rsm/translator.py:Translator.visit_theorem", "rsm/translator.py:Translator.visit_figure", "rsm/translator.py:Translator.visit_caption", "rsm/translator.py:Translator.visit_manuscript", "rsm/translator.py:Translator.visit_abstract", "rsm/translator.py:Translator.visit_bibliography"]}
