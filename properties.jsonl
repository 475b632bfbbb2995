{"id": "C01", "title": "Singular-sequence enumeration is exact", "statement": "For a script s, s.singular_sequences lists exactly the singular scripts that s stands for: a primitive stands for itself, an empty script for the empty sequence of its layer, a product for every combination of one sequence of each of its three roles, a sum for every sequence of each of its terms. Nothing is missing and nothing foreign appears.", "quantifier": "every script that can be built with the public constructors, at every layer", "why_tests_cant": "The set of scripts is infinite in shape (7 layers, arbitrary nesting of sums and products); examples only cover a few shapes and never the absence of missing or foreign sequences.", "anchors": ["ieml/dictionary/script/script.py: Script.singular_sequences, AdditiveScript._compute_singular_sequences, MultiplicativeScript._compute_singular_sequences, NullScript._compute_singular_sequences"]}
{"id": "C02", "title": "Cardinal bookkeeping", "statement": "len(s), s.cardinal and len(s.singular_sequences) are the same number, which is at least 1 and at most 360; s.paradigm is true exactly when that number is greater than 1.", "quantifier": "every script that can be built with the public constructors", "why_tests_cant": "cardinal, paradigm and the enumeration are computed by three independent recursions; agreement on samples says nothing about every nesting.", "anchors": ["ieml/dictionary/script/script.py: Script.__len__, AdditiveScript.__init__, MultiplicativeScript.__init__, NullScript.__init__, _compute_singular_sequences", "ieml/constants.py: MAX_SINGULAR_SEQUENCES"]}
{"id": "C03", "title": "Singular sequences are singular, same-layer and listed in order", "statement": "Every element of s.singular_sequences has cardinal 1, is not a paradigm and has the layer of s; the list is sorted for the script order.", "quantifier": "every buildable script, every element of its enumeration", "why_tests_cant": "Needs a universally quantified statement over every nested combination of sums and products.", "anchors": ["ieml/dictionary/script/script.py: _compute_singular_sequences"]}
{"id": "C04", "title": "No singular sequence is listed twice", "statement": "s.singular_sequences has no repetition, so len(s) == len(set(s.singular_sequences)).", "quantifier": "every buildable script", "why_tests_cant": "The defect only shows for sums whose terms overlap without being equal (for instance O:.+U:.), a shape test data rarely contains.", "anchors": ["ieml/dictionary/script/script.py: AdditiveScript._compute_singular_sequences, Script.singular_sequences_set"]}
{"id": "C05", "title": "A sum denotes the union of its terms", "statement": "When AdditiveScript(children=xs) (or x + y) succeeds, its set of singular sequences is the union of the sets of the xs, and it does succeed whenever the xs are a non-empty list of scripts of one layer whose total size fits the limit.", "quantifier": "every non-empty list of buildable same-layer scripts", "why_tests_cant": "Flattening, duplicate removal and the removal list interact through string equality; the bad interaction (a one-term sum given as an operand is dropped) needs an unusual operand.", "anchors": ["ieml/dictionary/script/script.py: AdditiveScript.__init__, Script.__add__"]}
{"id": "C06", "title": "A sum does not depend on order, duplicates or grouping", "statement": "Building a sum from a list, from any reordering of it, from the list with repeated terms, or from nested partial sums, gives equal scripts (same text).", "quantifier": "every list of buildable scripts, every permutation and every grouping", "why_tests_cant": "Python goes through a hash set whose iteration order is randomised per process, so one run sees one order.", "anchors": ["ieml/dictionary/script/script.py: AdditiveScript.__init__, Script.__lt__"]}
{"id": "C07", "title": "A product denotes all combinations of its roles", "statement": "When MultiplicativeScript(children=[s,a,m]) succeeds its singular sequences are exactly the products of one sequence of each role; missing roles count as empty; a wrapped one-term sum counts as its term; the layer is one more than the layer of the roles; mixed layers or more than three roles are refused with InvalidScript.", "quantifier": "every list of buildable scripts", "why_tests_cant": "Quantifies over all operands, including empty ones and one-term sums.", "anchors": ["ieml/dictionary/script/script.py: MultiplicativeScript.__init__, _compute_singular_sequences"]}
{"id": "C08", "title": "Text of a singular sequence identifies it", "statement": "Two singular scripts of any layers have the same text if and only if they have the same layer and the same word of primitives; hence equality and hashing by text coincide with equality of meaning on singular sequences.", "quantifier": "every pair of buildable singular scripts", "why_tests_cant": "Unambiguity of the notation (elided trailing empty roles, one- and two-letter abbreviations) is a statement about all pairs.", "anchors": ["ieml/dictionary/script/script.py: Script.__eq__, Script.__hash__, AdditiveScript._str, MultiplicativeScript._render_children, NullScript"]}
{"id": "C09", "title": "Reading back the text of a script gives the same script", "statement": "For every buildable script s up to layer 6, script(str(s)) succeeds and equals s.", "quantifier": "every buildable script", "why_tests_cant": "Round trip over an infinite language with elision and abbreviation rules.", "anchors": ["ieml/dictionary/script/parser/parser.py: ScriptParser", "ieml/dictionary/script/parser/lexer.py", "ieml/dictionary/script/script.py: __str__"]}
{"id": "C10", "title": "The script order is a strict total order", "statement": "For scripts a, b, c: exactly one of a < b, a == b, b < a holds; a < b and b < c imply a < c; and the order is compatible with ==.", "quantifier": "every triple of buildable scripts", "why_tests_cant": "Trichotomy and transitivity quantify over all pairs and triples; the comparison has six nested tie-break stages and a byte key that is not injective from layer 2 on.", "anchors": ["ieml/dictionary/script/script.py: Script.__lt__, Script.__eq__, Script.__gt__"]}
{"id": "C11", "title": "Membership test is semantic inclusion", "statement": "t in s is true exactly when t and s have the same layer and every singular sequence of t is one of s; it is reflexive and transitive, and mutual inclusion means the same set of singular sequences.", "quantifier": "every pair (triple) of buildable scripts", "why_tests_cant": "Quantifies over all pairs of scripts.", "anchors": ["ieml/dictionary/script/script.py: Script.__contains__"]}
{"id": "C12", "title": "Grammatical class of a script", "statement": "script_class of s is the maximum, over the singular sequences of s, of the class of its first primitive (E auxiliary, U and A verb, S B T noun).", "quantifier": "every buildable script", "why_tests_cant": "The class is computed by a recursion that never looks at singular sequences; agreement for all nestings needs induction.", "anchors": ["ieml/dictionary/script/script.py: script_class assignments in AdditiveScript, MultiplicativeScript, NullScript"]}
{"id": "C13", "title": "Promotion and mixed-layer addition", "statement": "promote(s, l) for l > s.layer has layer l and its singular sequences are those of s padded with empty primitives on the right; for l <= s.layer it returns s itself; for l > 6 it raises IndexError; add([..]) of scripts of various layers is the sum of their promotions to the highest layer.", "quantifier": "every buildable script, every target layer", "why_tests_cant": "Statement over all layers and scripts.", "anchors": ["ieml/dictionary/script/tools.py: promote", "ieml/dictionary/script/operator.py: add"]}
{"id": "C14", "title": "Factorisation preserves meaning", "statement": "Whenever factorize(s) (or script(x, factorize=True)) returns a script, that script has the layer of s and exactly the singular sequences of s, whatever order Python iterates its hash sets in.", "quantifier": "every buildable script, every set iteration order", "why_tests_cant": "Greedy heuristic over hash sets: results vary per process; a test sees one order for a few inputs.", "anchors": ["ieml/dictionary/script/tools.py: factor, pack_factorisation, factorize"]}
{"id": "C15", "title": "Factorisation always succeeds", "statement": "factorize(s) returns for every buildable script s.", "quantifier": "every buildable script", "why_tests_cant": "The failing shapes are rare (five sequences forming a cube corner plus the opposite corner) and the call raises KeyError.", "anchors": ["ieml/dictionary/script/tools.py: factor"]}
{"id": "C16", "title": "Cells of a paradigm table contain every singular sequence exactly once", "statement": "For a script whose singular sequences are pairwise distinct and for which s.cells is defined, the concatenation of all cells of s.cells is a permutation of s.singular_sequences.", "quantifier": "every buildable script", "why_tests_cant": "Index arithmetic with up to three dimensions, nested recursion on the only plural role and column-wise concatenation; needs a proof over all shapes.", "anchors": ["ieml/dictionary/script/script.py: AdditiveScript._compute_cells, MultiplicativeScript._compute_cells, NullScript._compute_cells, Script.cells"]}
{"id": "C17", "title": "A table is refused exactly when a header would be too long", "statement": "Computing the cells raises exactly when somewhere in the recursion a product with at least two plural roles has a plural role with more than 12 singular sequences.", "quantifier": "every buildable script", "why_tests_cant": "Depends on the recursive structure of arbitrary scripts.", "anchors": ["ieml/dictionary/script/script.py: MultiplicativeScript._compute_cells", "ieml/constants.py: MAX_SIZE_HEADER"]}
{"id": "C18", "title": "Reading a text fails only with CannotParse", "statement": "ScriptParser().parse(text) either returns a script or raises CannotParse.", "quantifier": "every text", "why_tests_cant": "All strings; the counterexamples are texts that are syntactically fine but too large.", "anchors": ["ieml/dictionary/script/parser/parser.py: ScriptParser.parse, t_parse"]}
{"id": "C19", "title": "Text with foreign characters is refused", "statement": "A text containing a character outside the script alphabet is not accepted.", "quantifier": "every text and every foreign character", "why_tests_cant": "Quantifies over all strings; the lexer logs and skips unknown characters.", "anchors": ["ieml/dictionary/script/parser/lexer.py: t_error"]}
{"id": "C20", "title": "Root paradigms partition the dictionary", "statement": "After a Dictionary has been built, any two root paradigms share no singular sequence and every script kept in the dictionary lies within exactly one root.", "quantifier": "every list of (script, is_root, is_ignored, inhibition) entries for which construction succeeds", "why_tests_cant": "Depends on all databases, not on the one database available to tests.", "anchors": ["ieml/dictionary/dictionary.py: Dictionary.__init__"]}
{"id": "C21", "title": "Dictionary construction succeeds on consistent data", "statement": "Building a Dictionary from entries whose roots are pairwise disjoint never raises, whatever entries are marked ignored.", "quantifier": "every set of entries with disjoint roots", "why_tests_cant": "Only unusual combinations (ignored script lying outside all roots) trigger the double deletion.", "anchors": ["ieml/dictionary/dictionary.py: Dictionary.__init__"]}
{"id": "C22", "title": "Dictionary positions are a sorted bijection", "statement": "scripts is strictly increasing for the script order, index is its inverse, and s in dictionary holds exactly for the listed scripts.", "quantifier": "every successfully built dictionary", "why_tests_cant": "All databases.", "anchors": ["ieml/dictionary/dictionary.py: Dictionary.__init__, __contains__, __len__"]}
{"id": "C23", "title": "Table ranks stay within 0..6", "statement": "Every table of a built table structure has rank between 0 and 6, so that relation computation never indexes outside its six table relations.", "quantifier": "every built table structure", "why_tests_cant": "Depends on nesting depth of contiguous sub-tables; the current database does not exhibit the overflow.", "anchors": ["ieml/dictionary/table/table.py: Table.rank, Table1D.accept_script, Table2D.accept_script, TableSet.accept_script", "ieml/dictionary/relation/relations.py: _compute_table_rank"]}
{"id": "C24", "title": "Relations come in inverse pairs", "statement": "For every relation name r and scripts a, b of the dictionary: b is an r-object of a iff a is an object of b for the inverse name of r.", "quantifier": "every dictionary, every relation name, every pair of scripts", "why_tests_cant": "Statement about all pairs for all dictionaries; the test checks a single script of a single database.", "anchors": ["ieml/dictionary/relation/relations.py: RelationsGraph", "ieml/constants.py: INVERSE_RELATIONS, RELATIONS"]}
{"id": "C25", "title": "The contains relation is a partial order agreeing with inclusion inside a root", "statement": "a contains b iff both lie in the same root and b in a; it is reflexive and transitive.", "quantifier": "every dictionary and every pair/triple of scripts", "why_tests_cant": "All pairs and triples.", "anchors": ["ieml/dictionary/relation/relations.py: RelationsGraph._compute_contains"]}
{"id": "C26", "title": "Sibling relations are irreflexive and exclusive", "statement": "No script is opposed/associated/crossed/twin to itself through the sibling rules, and a pair is related by at most the sibling relations its children dictate; each relation is symmetric.", "quantifier": "every dictionary, every pair of scripts", "why_tests_cant": "All pairs.", "anchors": ["ieml/dictionary/relation/relations.py: RelationsGraph._compute_siblings"]}
{"id": "C27", "title": "Inhibited relations do not appear", "statement": "If a root inhibits a relation, no script of that root has objects for this relation.", "quantifier": "every dictionary and every inhibition list", "why_tests_cant": "The corresponding test is commented out; father inhibitions are looked up under the wrong key.", "anchors": ["ieml/dictionary/relation/relations.py: RelationsGraph._compute_father, _compute_siblings, _compute_table_rank"]}
{"id": "C28", "title": "A stored descriptor can be read back", "statement": "After add_descriptor(ieml, lang, desc, v) succeeds for a non-blank value v without line breaks, the file contains one additional line whose fields read back as exactly (ieml, lang, desc, v.strip()); blank values change nothing; every other line is unchanged.", "quantifier": "every file content, every IEML key, language, descriptor and text value (quotes, spaces, any character but line breaks)", "why_tests_cant": "Quoting correctness is about all strings.", "anchors": ["ieml/ieml_database/ieml_database.py: add_descriptor, escape_value", "ieml/ieml_database/descriptors.py: from_csv_string"]}
{"id": "C29", "title": "Removing one value removes exactly that value", "statement": "remove_descriptor(ieml, lang, desc, v) deletes the lines holding exactly the value v for that key and keeps all the others.", "quantifier": "every file content made of stored lines, every key and value", "why_tests_cant": "The prefix test misfires only if another value continues with a quote character.", "anchors": ["ieml/ieml_database/ieml_database.py: remove_descriptor"]}
{"id": "C30", "title": "A value filter is honoured for every combination of omitted arguments", "statement": "remove_descriptor(ieml, None, desc, v) and remove_descriptor(ieml, lang, None, v) only delete entries with value v.", "quantifier": "every file content, every argument combination", "why_tests_cant": "Combination of optional arguments and file contents.", "anchors": ["ieml/ieml_database/ieml_database.py: remove_descriptor"]}
{"id": "C31", "title": "Distinct values are stored as distinct lines", "statement": "Two different stripped values have different stored lines.", "quantifier": "every pair of values", "why_tests_cant": "All pairs of strings; a line break and the two characters backslash-n collide.", "anchors": ["ieml/ieml_database/ieml_database.py: escape_value, _normalize_value"]}
{"id": "C32", "title": "set_descriptors installs exactly the requested values", "statement": "After set_descriptors(ieml, d, values) the stored values of descriptor d of ieml, language by language, are exactly the requested stripped non-blank values, every other descriptor of ieml and every other key is unchanged, and repeating the call changes nothing.", "quantifier": "every database state, key, descriptor and value table", "why_tests_cant": "All database states and value sets.", "anchors": ["ieml/ieml_database/transactions/DBTransaction.py: set_descriptors", "ieml/ieml_database/ieml_database.py: add_descriptor, remove_descriptor"]}
{"id": "C33", "title": "Structure settings: add, remove, replace", "statement": "set_inhibitions(p, l) leaves exactly the inhibitions l for p and preserves every other structure entry; is_root and is_ignored flags are unaffected.", "quantifier": "every structure file content, every inhibition list", "why_tests_cant": "All file contents.", "anchors": ["ieml/ieml_database/transactions/DBTransaction.py: set_inhibitions", "ieml/ieml_database/ieml_database.py: add_structure, remove_structure, Structure"]}
{"id": "C34", "title": "File names separate keys", "statement": "Two different IEML texts are stored in different files unless both are longer than 100 characters and the first ten hexadecimal digits of their sha224 digests collide; file names never exceed 105 characters and the directory depends only on the kind, the cardinality and the leading characters.", "quantifier": "every pair of IEML texts", "why_tests_cant": "All pairs of strings of all lengths around the truncation boundary.", "anchors": ["ieml/ieml_database/ieml_database.py: filename_of, path_of"]}
{"id": "C35", "title": "Key normalisation accepts exactly the valid keys", "statement": "normalize_key with parsing enabled accepts a (key, language, descriptor) triple iff the key parses (or is absent and allowed), the language is absent-and-partial or one of the declared languages, and likewise for the descriptor; accepted keys are unchanged by a second normalisation.", "quantifier": "every argument combination", "why_tests_cant": "Decision logic over all optional arguments and flags.", "anchors": ["ieml/ieml_database/descriptors.py: normalize_key"]}
{"id": "C36", "title": "Transactions are all-or-nothing", "statement": "A git transaction on a clean repository either ends with a new commit on top of the previous one whose tree is the complete resulting working tree, or (when the body raises at any point) leaves HEAD, index and working tree as they were; a body that changes nothing creates no commit; a dirty repository is refused before anything is touched.", "quantifier": "every initial repository, every sequence of file operations, every point at which the body raises", "why_tests_cant": "All failure points of all bodies.", "anchors": ["ieml/ieml_database/git_interface.py: git_transaction, GitInterface.status, GitInterface.reset, GitInterface.commit"]}
{"id": "C37", "title": "Pull resolves every conflict in favour of the remote and reports the local version", "statement": "After a pull with conflicting descriptor files the working tree holds the remote version of every conflicting file and the merge of all others, and the returned table holds the local values of every conflicting key.", "quantifier": "every triple (base, local, remote) of repository states", "why_tests_cant": "All combinations of add/modify/delete on both sides.", "anchors": ["ieml/ieml_database/git_interface.py: GitInterface.pull"]}
{"id": "C38", "title": "A cached result is never stale", "statement": "If any watched file is added, removed or modified after a result was cached, the next call recomputes it.", "quantifier": "every pair of folder states", "why_tests_cant": "The cache key concatenates names and contents without delimiters, so two different folders can produce the same key text without any digest collision.", "anchors": ["ieml/commons.py: FolderWatcherCache, cache_results_watch_files"]}
{"id": "C39", "title": "Cache survives interruption", "statement": "If the process is interrupted at any point while updating the cache (before or after deleting old files, during the write), later calls still return the value computed from the current folder.", "quantifier": "every interruption point, every folder state", "why_tests_cant": "All crash points.", "anchors": ["ieml/commons.py: FolderWatcherCache.update, get, cache_results_watch_files"]}
{"id": "C40", "title": "List queries reflect the current database", "statement": "get_list results depend only on the current content of the database folder.", "quantifier": "every history of modifications and queries", "why_tests_cant": "Histories; the watched pattern covers morpheme descriptors only.", "anchors": ["ieml/ieml_database/ieml_database.py: get_list, list"]}
{"id": "C41", "title": "Polymorpheme normal form", "statement": "Building a polymorpheme from any reordering of its constants, of its groups and of the morphemes inside a group, with any number of empty morphemes added, gives the same polymorpheme.", "quantifier": "every list of constants and groups, every permutation", "why_tests_cant": "All permutations.", "anchors": ["ieml/usl/polymorpheme.py: PolyMorpheme.__init__"]}
{"id": "C42", "title": "Group multiplicity is respected", "statement": "Every singular sequence of a polymorpheme takes at most m morphemes from a group of multiplicity m.", "quantifier": "every polymorpheme", "why_tests_cant": "Fails only when the smallest group size equals the multiplicity of a bigger group.", "anchors": ["ieml/usl/polymorpheme.py: compute_PM_singular_sequences"]}
{"id": "C43", "title": "Polymorpheme singular sequences are exactly the balanced selections", "statement": "The singular sequences of a polymorpheme with groups are exactly the constants plus a choice, from every group, of q or q+1 distinct morphemes for a common q within the allowed range, whose total size is between 1 and 5; without groups the polymorpheme is its only singular sequence. No singular sequence is listed twice.", "quantifier": "every polymorpheme", "why_tests_cant": "Combinatorial enumeration with early exits.", "anchors": ["ieml/usl/polymorpheme.py: compute_PM_singular_sequences", "ieml/constants.py: MORPHEME_SERIE_SIZE_LIMIT_CONTENT"]}
{"id": "C44", "title": "Every polymorpheme has at least one singular sequence", "statement": "cardinal is at least 1 for every polymorpheme.", "quantifier": "every polymorpheme", "why_tests_cant": "Fails for large constant parts combined with groups.", "anchors": ["ieml/usl/polymorpheme.py: compute_PM_singular_sequences", "ieml/usl/usl.py: USL.cardinal"]}
{"id": "C45", "title": "Index strings sort like the numbers they encode", "statement": "For numbers below 62^30 the encoded strings have length 30 and compare lexicographically (in the encoding alphabet order) as the numbers; distinct numbers give distinct strings.", "quantifier": "every pair of numbers below the bound", "why_tests_cant": "All pairs of a huge range.", "anchors": ["ieml/usl/__init__.py: int2base"]}
{"id": "C46", "title": "Polymorpheme index identifies constants", "statement": "Two polymorphemes without groups with different constants (same number of at least two dictionary morphemes) have different indexes; a group is ignored by the index.", "quantifier": "every dictionary and pair of polymorphemes", "why_tests_cant": "All pairs.", "anchors": ["ieml/usl/__init__.py: _polymorph_idx, get_index"]}
{"id": "C47", "title": "Polymorpheme and lexeme text reads back", "statement": "Parsing the text of a polymorpheme or a lexeme yields an equal object (a single-morpheme polymorpheme reads back as that morpheme), so text-based equality is sound.", "quantifier": "every polymorpheme and lexeme built from valid morphemes", "why_tests_cant": "Infinite language.", "anchors": ["ieml/usl/parser/parser.py: IEMLParser", "ieml/usl/lexeme.py: Lexeme.__init__", "ieml/usl/polymorpheme.py: PolyMorpheme.__init__"]}
{"id": "C48", "title": "Lexeme and word singular sequences are products", "statement": "The singular sequences of a lexeme are exactly the lexemes made of a singular sequence of its flexion and one of its content; those of a word the words made of one singular sequence per role; cardinals multiply.", "quantifier": "every lexeme and word", "why_tests_cant": "All combinations.", "anchors": ["ieml/usl/lexeme.py: Lexeme._compute_singular_sequences", "ieml/usl/word.py: Word._compute_singular_sequences", "ieml/usl/syntagmatic_function.py: SyntagmaticFunction.singular_sequences"]}
{"id": "C49", "title": "Syntagmatic function list form round trip", "statement": "SyntagmaticFunction.from_list(f.as_list(type)) gives back f and its type, for every function accepted by from_list.", "quantifier": "every syntagmatic function, every nesting depth", "why_tests_cant": "Recursive tree structure of unbounded depth; the test covers three examples.", "anchors": ["ieml/usl/syntagmatic_function.py: from_list, as_list, _from_list"]}
{"id": "C50", "title": "Malformed role lists are reported as ValueError", "statement": "from_list on any list of (address, lexeme) pairs either returns a function or raises ValueError.", "quantifier": "every list of role addresses", "why_tests_cant": "All malformed lists; an off-by-one lets IndexError escape.", "anchors": ["ieml/usl/syntagmatic_function.py: JunctionSyntagmaticFunction._from_list, IndependantQualitySyntagmaticFunction._from_list"]}
{"id": "C51", "title": "Taking a USL apart into paths and reassembling it is the identity", "statement": "usl_from_path_values(list(u.iter_structure_path_by_script_ss())) has the same text as u.", "quantifier": "every polymorpheme with at most three groups, lexeme and word", "why_tests_cant": "All structures.", "anchors": ["ieml/usl/decoration/path.py: usl_from_path_values, PolymorphemePath", "ieml/usl/polymorpheme.py: iter_structure_path"]}
{"id": "C52", "title": "Following a structure path reaches the listed component", "statement": "For every (path, value) listed by u.iter_structure_path(), path.deference(u) is equal to value.", "quantifier": "every USL and every listed path", "why_tests_cant": "All structures; fails for the flexion of lexemes.", "anchors": ["ieml/usl/decoration/path.py: deference", "ieml/usl/lexeme.py: iter_structure_path"]}
{"id": "C53", "title": "Path prefix algebra", "statement": "has_prefix is reflexive and transitive; p.concat(q) has prefix p; split_tail followed by concat gives back the path.", "quantifier": "every path", "why_tests_cant": "All paths.", "anchors": ["ieml/usl/decoration/path.py: UslPath"]}
{"id": "C54", "title": "Decorations do not leak between expressions", "statement": "After an InstancedUSL has been built (or its construction raised) no component keeps a literal that was set during the construction.", "quantifier": "every USL, every decoration list, every failing position", "why_tests_cant": "All failing positions and aliasing patterns.", "anchors": ["ieml/usl/decoration/instance.py: LiteralContext, InstancedUSL", "ieml/commons.py: DecoratedComponent"]}
{"id": "C55", "title": "Decorations stay where they were put", "statement": "The decorations listed by an InstancedUSL are exactly those given (path by path).", "quantifier": "every USL and decoration list with distinct paths", "why_tests_cant": "Morpheme objects are shared through the parser cache, which a test with distinct morphemes cannot see.", "anchors": ["ieml/usl/decoration/instance.py: InstancedUSL.list_decorations, Decoration.apply"]}
{"id": "C56", "title": "Insertion-refreshing dictionary", "statement": "Iterating a LastUpdatedOrderedDict yields the keys by time of their last assignment, each with its last assigned value.", "quantifier": "every sequence of assignments and deletions", "why_tests_cant": "All histories.", "anchors": ["ieml/commons.py: LastUpdatedOrderedDict"]}
{"id": "C57", "title": "Number of table dimensions", "statement": "enumerate_partitions returns, besides the number of leaves, only lists of pairwise incomparable paths, and each combination exactly once.", "quantifier": "every prefix tree of variable paths", "why_tests_cant": "Recursive trees.", "anchors": ["ieml/usl/table.py: enumerate_partitions"]}
{"id": "C58", "title": "Index keys: equal texts, equal hash, and comparison with strings", "statement": "Two scripts comparing equal have equal hash; comparing a script with a text is comparing its own text; hence sets and dictionaries keyed by scripts and by texts agree.", "quantifier": "every script and text", "why_tests_cant": "All pairs.", "anchors": ["ieml/dictionary/script/script.py: __eq__, __hash__"]}
{"id": "C59", "title": "Table scripts split the paradigm", "statement": "When the tables of a script without overlapping sums are defined, the scripts in tables_script have together exactly the words of the script, are buildable scripts of its layer, and their cardinals add up to its cardinal.", "quantifier": "every buildable script without overlapping sums", "why_tests_cant": "Holds through nested recursion on the only plural role, concatenation over sums and pages of three-dimensional tables.", "anchors": ["ieml/dictionary/script/script.py: AdditiveScript._compute_cells, MultiplicativeScript._compute_cells, Script.tables_script"]}
{"id": "C60", "title": "Headers label rows, columns and pages", "statement": "For a product with at least two plural roles whose tables are defined, there is one array; each page k has a script with exactly the words of the cells of the page, row header i has exactly the words of row i of the page, column header j those of column j, and the numbers of headers match the shape. The tables of every other paradigm are put together, in order, from such grids and from lines: one array of one dimension with one script, which is its only header.", "quantifier": "every buildable script without overlapping sums", "why_tests_cant": "Index arithmetic for the four choices of plural roles, any sizes up to 12.", "anchors": ["ieml/dictionary/script/script.py: MultiplicativeScript._compute_cells, Script.headers"]}
{"id": "C61", "title": "Reading a list of roles loses and moves nothing", "statement": "The lexemes of the function returned by from_list are exactly those of the list, each at the address it was given.", "quantifier": "every list of (address, lexeme) pairs accepted by from_list", "why_tests_cant": "All lists; depends on the order in which junction and non-junction addresses come.", "anchors": ["ieml/usl/syntagmatic_function.py: DependantQualitySyntagmaticFunction._from_list, JunctionSyntagmaticFunction._from_list"]}
{"id": "C62", "title": "Word text reads back", "statement": "Parsing the text of a word yields a word with the same text, role, function type, grammatical class and the same lexemes at the same addresses, so text-based equality of words is sound.", "quantifier": "every word built from a list of roles and a role", "why_tests_cant": "Infinite language: roles nest without bound (junctions, qualities) and lexemes are arbitrary.", "anchors": ["ieml/usl/parser/parser.py: IEMLParser", "ieml/usl/parser/lexer.py: get_lexer", "ieml/usl/word.py: Word.__init__", "ieml/usl/syntagmatic_function.py: SyntagmaticFunction.render_with_context"]}
{"id": "C63", "title": "The order of the roles does not matter", "statement": "Rearranging the list of roles given to from_list changes neither whether it is accepted nor the function read, up to the order of the actants of a process; words made of it have the same text.", "quantifier": "every list of roles and every rearrangement", "why_tests_cant": "All permutations of lists of any length, with nested junctions.", "anchors": ["ieml/usl/syntagmatic_function.py: SyntagmaticFunction.from_list", "ieml/usl/syntagmatic_function.py: SyntagmaticFunction.render_with_context", "ieml/usl/word.py: Word.__init__"]}
{"id": "C64", "title": "Paths derived from a path", "statement": "without_morpheme returns a prefix of the path that mentions no morpheme; as_constant returns a path in which every polymorpheme node is a constant one, is accepted by the constructors and is idempotent.", "quantifier": "every path accepted by the constructors", "why_tests_cant": "All paths of any length.", "anchors": ["ieml/usl/decoration/path.py: UslPath.without_morpheme, as_constant, is_constant"]}
{"id": "C65", "title": "Reading a USL text fails only with CannotParse", "statement": "IEMLParser().parse(text) either returns a USL or raises CannotParse.", "quantifier": "every text", "why_tests_cant": "All strings; the counterexamples are well-formed texts that are too large or whose roles are inconsistent.", "anchors": ["ieml/usl/parser/parser.py: IEMLParser.parse, p_word", "ieml/usl/syntagmatic_function.py: from_list"]}
{"id": "C66", "title": "Path texts read back", "statement": "The text of a path is read by PathParser as the same path: equal for ==, with the same nodes, and reaching the same things; whatever is read is a path of the grammar.", "quantifier": "every path accepted by the constructors, in particular every path listed by iter_structure_path of every USL", "why_tests_cant": "All paths, morphemes, roles and multiplicities.", "anchors": ["ieml/usl/decoration/parser/lexer.py: get_lexer", "ieml/usl/decoration/parser/parser.py: PathParser", "ieml/usl/decoration/path.py: UslPath.__str__, _to_str"]}
{"id": "C67", "title": "Role names in paths stand for their scripts", "statement": "A role written in a path with names of ROLE_NAMES_TO_SCRIPT and scripts of addresses is read as the role of the corresponding scripts.", "quantifier": "every non-empty sequence of names and scripts", "why_tests_cant": "All sequences; three of the names are shadowed by the prefix *1.", "anchors": ["ieml/usl/constants.py: ROLE_NAMES_TO_SCRIPT", "ieml/usl/decoration/parser/lexer.py: t_ROLE_NAME", "ieml/usl/decoration/parser/parser.py: p_role_path_list"]}
{"id": "C68", "title": "Reading a path text fails only with CannotParse", "statement": "PathParser().parse(text) either returns a path or raises CannotParse.", "quantifier": "every text", "why_tests_cant": "All strings.", "anchors": ["ieml/usl/decoration/parser/parser.py: PathParser.parse, p_polymorpheme_path"]}
{"id": "C69", "title": "Creating a root paradigm", "statement": "create_root_paradigm accepts a paradigm that is its own factorisation, has several singular sequences, has no descriptor, and shares no sequence with the roots of the dictionary.", "quantifier": "every database, dictionary, script, order of iteration of the sets", "why_tests_cant": "All scripts and databases; the failing loop is the same for all inputs.", "anchors": ["ieml/ieml_database/transactions/DBTransaction.py: create_root_paradigm", "ieml/dictionary/table/table_structure.py: TableStructure.root"]}
{"id": "C70", "title": "Adding a paradigm", "statement": "add_morpheme_paradigm accepts exactly the factored paradigms with several sequences that are not in the dictionary and lie within one root; afterwards the paradigm has the given translations and comments and nothing else, is marked as no root, and nothing else in the database changes.", "quantifier": "every database written by the library, every script, translations, comments, and order of iteration of the sets", "why_tests_cant": "All databases, scripts and texts.", "anchors": ["ieml/ieml_database/transactions/DBTransaction.py: add_morpheme_paradigm", "ieml/ieml_database/ieml_database.py: add_descriptor, add_structure, remove_descriptor, remove_structure"]}
{"id": "C71", "title": "The dictionary after an addition", "statement": "After an accepted add_morpheme_paradigm with translations the dictionary can be read, has the same roots, and contains the paradigm.", "quantifier": "every database with consistent dictionary data, every accepted paradigm", "why_tests_cant": "All databases; the reading of the dictionary involves all paradigms together.", "anchors": ["ieml/ieml_database/transactions/DBTransaction.py: add_morpheme_paradigm", "ieml/ieml_database/ieml_database.py: list, get_dictionary", "ieml/dictionary/dictionary.py: Dictionary.__init__"]}
{"id": "C72", "title": "Deleting paradigms and roots", "statement": "delete_morpheme_paradigm accepts exactly the factored paradigms of the dictionary that are not roots, delete_morpheme_root_paradigm exactly the factored roots; what is deleted loses its descriptors and settings (a root also the descriptors of the scripts it contains, on demand), nothing else changes, and the dictionary can still be read.", "quantifier": "every database written by the library, every script", "why_tests_cant": "All databases and scripts.", "anchors": ["ieml/ieml_database/transactions/DBTransaction.py: delete_morpheme_paradigm, delete_morpheme_root_paradigm"]}
{"id": "C73", "title": "Updating a paradigm", "statement": "update_morpheme_paradigm moves the descriptors and settings of a paradigm to a new one that is not in the dictionary and lies within a root; a root can be updated to a paradigm that contains it; nothing else changes.", "quantifier": "every database written by the library, every pair of scripts", "why_tests_cant": "All databases and pairs of scripts.", "anchors": ["ieml/ieml_database/transactions/DBTransaction.py: update_morpheme_paradigm"]}
{"id": "C74", "title": "The factored form is canonical", "statement": "factorize depends only on the set of sequences: two scripts with the same singular sequences have the same factored form, factorize is idempotent, and there is at most one factored script with given sequences.", "quantifier": "every pair of buildable scripts, every set iteration order of one process", "why_tests_cant": "All pairs of scripts with the same words.", "anchors": ["ieml/dictionary/script/tools.py: factor, pack_factorisation, factorize", "ieml/ieml_database/transactions/DBTransaction.py: _check_script"]}
{"id": "C75", "title": "The order of USLs", "statement": "< on USLs is a strict total order consistent with ==: it never raises, equal USLs are not smaller than each other, of two different USLs exactly one is smaller, it is transitive, and sorting a collection of USLs does not depend on the order it comes in.", "quantifier": "every pair and triple of polymorphemes, lexemes, words, scripts and instances", "why_tests_cant": "All pairs and triples of USLs of unbounded size.", "anchors": ["ieml/usl/usl.py: USL.__lt__", "ieml/usl/polymorpheme.py: do_lt", "ieml/usl/lexeme.py: do_lt", "ieml/usl/word.py: do_lt", "ieml/usl/syntagmatic_function.py: SyntagmaticRole.__lt__, SyntagmaticFunction.__lt__", "ieml/usl/decoration/instance.py: InstancedUSL"]}
{"id": "C76", "title": "What the checks accept", "statement": "check_polymorpheme, check_lexeme and check_word accept exactly the well-made expressions: singular morphemes, none twice, multiplicities of 1 to 3 within the size of the group, a lexeme at every role, a role that is one of the word's; every USL the parser accepts passes its check.", "quantifier": "every polymorpheme, lexeme and word", "why_tests_cant": "All expressions of unbounded size; acceptance is an equivalence.", "anchors": ["ieml/usl/polymorpheme.py: check_polymorpheme", "ieml/usl/lexeme.py: check_lexeme", "ieml/usl/word.py: check_word", "ieml/usl/syntagmatic_function.py: check", "ieml/usl/constants.py: check_address_script"]}
{"id": "C77", "title": "Simplifying a word", "statement": "simplify_word succeeds on every word; it keeps the role, removes exactly the roles at and below which nothing is written, except the verb and those that lead to the role of the word, keeps the other ones in order, and is idempotent.", "quantifier": "every word read from a list of roles", "why_tests_cant": "All trees of roles of unbounded depth.", "anchors": ["ieml/usl/word.py: simplify_word"]}
{"id": "C78", "title": "Morphemes and emptiness of USLs", "statement": "morphemes lists every morpheme written in a lexeme or word once and in order, and nothing else; a USL is empty exactly when nothing is written in it.", "quantifier": "every lexeme and word", "why_tests_cant": "All words of unbounded size.", "anchors": ["ieml/usl/lexeme.py: morphemes, empty", "ieml/usl/word.py: morphemes, empty", "ieml/usl/polymorpheme.py: morphemes", "ieml/usl/syntagmatic_function.py: empty"]}
{"id": "C79", "title": "Membership and length of USLs", "statement": "v in u is a reflexive and transitive relation between USLs; every singular sequence of a USL is in it and has length 1; a polymorpheme without groups is in another exactly when it is a selection of its constants and groups; a lexeme is in another exactly when its flexion and content are in those of the other; a word is in another with the same roles exactly when, role by role, its lexemes are.", "quantifier": "every pair or triple of USLs", "why_tests_cant": "All USLs of unbounded size; transitivity is about triples.", "anchors": ["ieml/usl/usl.py: USL.__contains__, __len__, cardinal, is_singular, singular_sequences_set", "ieml/dictionary/script/script.py: Script.__contains__"]}
{"id": "C80", "title": "Tables of USLs by paths", "statement": "A UslTable2D has one row of cells per row USL and one column of cells per column USL; a cell has the constants, the selection of its row and that of its column; the rows and columns run over the singular sequences of the parts reached by their paths, each once; the singular sequences of a row USL are the cells of the row, and those of a column USL are the cells of the column.", "quantifier": "every USL, every path of columns and of rows or none, every order in which Python lists the sets", "why_tests_cant": "All USLs and paths; sets of paths are listed in an order that changes from run to run.", "anchors": ["ieml/usl/table.py: UslTable2D"]}
{"id": "C81", "title": "Listing the expressions of the database", "statement": "IEMLDatabase.list(type, paradigm, parse) returns exactly the keys that have a descriptor and whose expression is of the class asked for and is a paradigm or not as asked, each once; with parse, their objects.", "quantifier": "for all databases written by the program, all classes and values of paradigm, all sets of existing folders", "why_tests_cant": "The list is made by find, cat, cut and uniq on the files; whether a key is lost, cut, doubled or listed in the wrong class depends on every stored key and file name, and the combinations of the optional arguments are rarely all tried.", "anchors": ["ieml/ieml_database/ieml_database.py:149-175"]}
{"id": "C82", "title": "All the descriptors of an expression", "statement": "Descriptors.get_descriptor(ieml) gives for every descriptor class and language, and for nothing else, exactly the values of get_values, in the same order; it raises AssertionError for None if anything is stored, and KeyError for an unknown descriptor class.", "quantifier": "for all readable files and all keys", "why_tests_cant": "The values pass through a sorted index, a grouping and a table filled place by place; tests compare a few tables only.", "anchors": ["ieml/ieml_database/descriptors.py:84-106"]}
{"id": "C83", "title": "Migrating all the expressions", "statement": "DBTransactions.update_all_ieml(f) moves the descriptors of every expression u to f(u) in one commit.", "quantifier": "for all repositories, databases, migrations f and git failures", "why_tests_cant": "It is called by a script on the production database only; the failure shows only when there is something to migrate.", "anchors": ["ieml/ieml_database/transactions/DBTransaction.py:355-371"]}
{"id": "C84", "title": "Texts of expressions are stable keys", "statement": "For every text t that the parser accepts without decorations, the text of the expression it reads is accepted too and read as the same expression: same class, same text, same parts, same length; the texts hold no quotation mark, line break or slash. Hence get_path_of(t, normalize=True) is the path of the normalised text, and the database finds under the normalised key what was stored under t.", "quantifier": "for all texts accepted by IEMLParser, all expressions read", "why_tests_cant": "The claim ranges over all texts; the counterexamples are sums of one term, empty groups and old class prefixes, which the dictionary used by the tests does not contain.", "anchors": ["ieml/usl/parser/parser.py:60-230", "ieml/ieml_database/ieml_database.py:118-146", "ieml/ieml_database/descriptors.py:23-28"]}
{"id": "C85", "title": "Differences of two commits", "statement": "diff(c0, c1) has one entry for every file whose content is not the same in the two commits, with the key of the file; the added and deleted lines turn the first content into the second; is_new and is_removed tell whether the file is absent from c0 or c1. In particular, between the commits before and after the addition of a descriptor the difference is the file of the key, with the line of the descriptor. An unknown commit gives KeyError.", "quantifier": "for all repositories, all pairs of commits, all correct line comparisons", "why_tests_cant": "No test calls diff; the claim is about every pair of trees and every comparison algorithm, and it fails for files with two keys, empty files and files without quotation marks.", "anchors": ["ieml/ieml_database/git_interface.py:400-429"]}
{"id": "C86", "title": "Parts of a table", "statement": "Table.accept_script tells which paradigms are parts of a table. In a table of two dimensions (of rank 0 or odd) a paradigm within it is accepted exactly when its words fill whole rows or whole columns, or a block of at least two rows and two columns whose parts start at equal distances on the circle; it is regular exactly when it is one row or one column. In a table of one dimension a paradigm is accepted exactly when its words follow each other. A set of tables, or a table of three dimensions, accepts exactly the unions of its tables, unless it lies below another set. index_of gives the only position of a cell and KeyError for anything else. accept_script never raises.", "quantifier": "for all tables without repeated words, all paradigms without repeated words", "why_tests_cant": "The claim ranges over all shapes of tables and all subsets of their cells; the diagonal of a table, which is accepted, does not occur among the paradigms used by the tests.", "anchors": ["ieml/dictionary/table/table.py:66-151", "ieml/dictionary/table/table.py:168-190", "ieml/dictionary/table/table.py:227-242"]}
{"id": "C87", "title": "Maintenance programs that move expressions", "statement": "normalize_database.py, rewrite_words.py, remove_usl.py and factorize_db.py move expressions of the database to other texts. After the move everything stored for an old text (descriptors and settings) is stored for the new text, in addition to what was there; the old text has nothing left; all the other expressions are unchanged; when a program stops, the database is as it was.", "quantifier": "for all databases, all lists of expressions to remove and to move, all parsers", "why_tests_cant": "The programs have no tests; what they do depends on whether the old text is itself in normal form, on files shared by several expressions and on expressions that are both moved and the target of a move.", "anchors": ["scripts/database_management/normalize_database.py:33-107", "scripts/database_management/rewrite_words.py:127-141", "scripts/database_management/remove_usl.py:105-119", "scripts/factorize_db.py:43-54", "ieml/ieml_database/ieml_database.py:278-334"]}
{"id": "C88", "title": "Texts of decorated expressions", "statement": "The text of an InstancedUSL (the expression followed by its decorations) is read by the parser as an InstancedUSL of the same expression with the same decorations.", "quantifier": "for all polymorphemes, lexemes and words read by the parser, all lists of decorations, all values", "why_tests_cant": "The lexer must recognise every kind of path inside the text of an expression and find the end of every value; the tests decorate a few paths with plain values.", "anchors": ["ieml/usl/decoration/instance.py:38-39", "ieml/usl/decoration/instance.py:48-86", "ieml/usl/parser/parser.py:42-78", "ieml/usl/parser/parser.py:199-212", "ieml/usl/parser/lexer.py"]}
{"id": "C89", "title": "Order of paths and decorations", "statement": "Paths and decorations are ordered: < raises no exception, is irreflexive and transitive, and decides between any two different paths. The decorations of an InstancedUSL are sorted by it, so that its text depends on the expression and its decorations only, not on the order in which they are given; reading the text and writing it again gives the same text.", "quantifier": "for all paths, all lists of decorations, all expressions read by the parser", "why_tests_cant": "Sorting hides comparisons that are no order; the tests compare a few paths of one kind and never read a written instance back to compare the texts.", "anchors": ["ieml/usl/decoration/path.py:148-161", "ieml/usl/decoration/path.py:232-233", "ieml/usl/decoration/path.py:387-388", "ieml/usl/decoration/path.py:482-483", "ieml/usl/decoration/path.py:606-607", "ieml/usl/decoration/instance.py:41-42", "ieml/usl/decoration/instance.py:71-79"]}
{"id": "C90", "title": "Rewriting of words", "statement": "rewrite_word keeps the role and the context of a word, the contents of its lexemes and all their flexions except those that a verb or a noun has by default; it leaves out exactly the entries in which nothing is written and which are not on the path of the role; rewriting the result again changes nothing.", "quantifier": "for all words read from a list of entries", "why_tests_cant": "The program is run once on the whole database and has no test; what it drops (flexion groups, junctions) is seen only in the words that have it.", "anchors": ["scripts/database_management/rewrite_words.py:19-44"]}
{"id": "C91", "title": "Making a USL from any argument", "statement": "usl(arg) gives a USL, and usl of a USL is this USL; a list with an item that is not a pair of a path and an expression raises the exception of the first such item; otherwise every morpheme of the result comes from one of the values, and the pairs of a path and a morpheme of a polymorpheme, lexeme or word give the same one again in whatever order they are listed.", "quantifier": "every argument; for the parts, every polymorpheme, lexeme and word and every order of its pairs", "why_tests_cant": "All expressions of unbounded size and all permutations of their parts.", "anchors": ["ieml/usl/usl.py: usl (108-181)", "ieml/usl/decoration/path.py: usl_from_path_values (688-738)"]}
{"id": "C92", "title": "Variations of polymorphemes", "statement": "The singular sequences of a variation are polymorphemes with different texts, one for each choice of at most `multiplicity` items, made of exactly the chosen ones; they are those of the polymorpheme whose only group has these items and this multiplicity, do not depend on the order of the items, and are counted by cardinal. A variation is empty exactly when it has no items, its check accepts what the check of the polymorpheme accepts, its items have paths, and do_lt is a strict total order.", "quantifier": "every list of items and every integer multiplicity", "why_tests_cant": "Lists of items of unbounded length and all choices among them.", "anchors": ["ieml/usl/variation.py: PolyMorphemeVariation (14-55)", "ieml/usl/usl.py: USL (8-105)"]}
{"id": "C93", "title": "Phrases", "statement": "The text of a phrase determines the texts of its three words; its singular sequences are the phrases of one sequence of each word, each once, so that its cardinal is the product of theirs; the same holds for the sequences of lexemes and words, which have different texts. A phrase is empty when its words are, its text is read back as the same phrase, and phrases can be compared.", "quantifier": "every phrase of three words", "why_tests_cant": "Words of unbounded size with any number of sequences.", "anchors": ["ieml/usl/phrase.py: Phrase (14-41), check_phrase (8-11)", "ieml/usl/word.py: _compute_singular_sequences (60-65)", "ieml/usl/lexeme.py: _compute_singular_sequences (76-85)"]}
{"id": "C94", "title": "Checks of the arguments of the transactions", "statement": "The descriptors given to a transaction are accepted exactly when each known language has no value or a list of strings; the dictionary is then completed with empty lists, keeps what it held, is the same when checked again, and the strings stored by set_descriptors are those given. Refused dictionaries are left unchanged and unknown languages are refused. Dictionaries by language and class are accepted exactly when they hold lists of strings under known languages and classes; inhibitions when they are known relations; expressions when they are USLs or factorised scripts. Numbered descriptors of different tables are different.", "quantifier": "every dictionary of strings, lists, tuples and other objects, every expression and database", "why_tests_cant": "Dictionaries with any keys and values of any length, and every way in which a check can stop.", "anchors": ["ieml/ieml_database/transactions/DBTransaction.py: append_idx_to_dict (11-12), _check_inhibitions (14-17), _check_ieml (29-35), _check_descriptors (37-46), _check_multi_descriptors (49-65), set_descriptors (288-324)"]}
{"id": "C95", "title": "The list of all expressions", "statement": "get_list returns for every readable database in normal form; it lists exactly the texts that have descriptors and that read with the dictionary, each once, sorted by index and then by text; morphemes first in the order of the dictionary, then polymorphemes, lexemes and words; the type, grammatical class, index and cardinality of an element are those of its expression and its values are those returned by get_values.", "quantifier": "every folder of descriptor and structure files, every dictionary and every expression", "why_tests_cant": "Any number of records in any order, every kind of expression as key, and dictionaries of any size.", "anchors": ["ieml/ieml_database/ieml_database.py: get_list (226-261)", "ieml/usl/__init__.py: get_index (29-42)", "ieml/usl/parser/parser.py: p_morpheme (81-91)", "ieml/constants.py: GRAMMATICAL_CLASS_NAMES (33-37), TYPES (238)", "ieml/ieml_database/descriptors.py: Descriptors.__init__ (67-69)"]}
{"id": "C96", "title": "Access to the cells of tables and to the children of tables", "statement": "The shape of a table has as many numbers as the table has dimensions and their product is the number of sequences. index_of gives the place of each sequence, t[place] the sequence at each place within the shape, and they are inverse of each other; index_of raises KeyError for any other script; negative indexes count from the end and indexes outside raise IndexError. rows and columns have one script for each row and column, with exactly its words. In the structure of a dictionary every table that is not a root table is a child of exactly one table, which has all its words, and children lists no table twice.", "quantifier": "every table that is built, every index, every script, every dictionary", "why_tests_cant": "Tables of any size and shape, all indexes, dictionaries of any size.", "anchors": ["ieml/dictionary/table/table.py: shape, rows, columns, __getitem__, index_of (41-76, 163-180, 222-224, 246-255)", "ieml/dictionary/table/table_structure.py: children (39-44), values (112-115)"]}
{"id": "C97", "title": "Opening of folders, branches, remotes and push", "statement": "Opening a folder on a branch, or a checkout, either raises (exactly when the branch or the commit is unknown or a hidden file is in the way) or leaves the branch asked for at the commit asked for, with exactly its visible files, nothing to commit, and the other branches and all commits where they were; doing it again changes nothing; uncommitted work and local commits are kept. A pull uses the commit of the server, brings a folder opened at an old commit to it, and what was pulled and what was local become ancestors of the current commit, so that a push is then accepted. A push raises exactly when the remote is unknown, there are no credentials or the server refuses, and published commits stay published. add_remote fails exactly when the name has another address.", "quantifier": "every folder, branch, commit graph, set of servers and remotes, every sequence of pushes", "why_tests_cant": "Commit graphs and histories of pushes of any size, every state of the working tree and of the index.", "anchors": ["ieml/ieml_database/git_interface.py: __init__ (107-136), checkout (169-181), repo (183-200), pull (203-227), push (371-382), current_commit, get_version (384-390), add_remote (392-399)"]}
{"id": "C98", "title": "Parsers used by several threads", "statement": "However the instructions of any number of threads that use the parsers of USLs, paths and scripts are interleaved, never are two threads inside the same parser, the threads never block each other, no execution is infinite, at the end all locks are free, and every thread has the result its calls give alone; the memo of the script parser contains at every moment only correct results, every text once, no exceptions, and not more than its size. Constructions of InstancedUSL made under the lock of the parser give what they give alone and leave no literal.", "quantifier": "every number of threads, every program of each, every content of the parsers that keeps the order of the locks, every interleaving", "why_tests_cant": "The number of interleavings grows exponentially, and a scheduler shows only a few of them.", "anchors": ["ieml/usl/parser/parser.py: lock (29), parse (47-59), p_instanced_usl (75-78), p_morpheme (84), p_decoration (211)", "ieml/usl/decoration/parser/parser.py: lock (18), parse (30-42)", "ieml/dictionary/script/parser/parser.py: lock, t_parse (19-38)", "ieml/usl/decoration/instance.py: 9-24, 51-69"]}
{"id": "C99", "title": "The LaTeX table of a word", "statement": "word_to_latex writes, between a header and a caption with the text of the word, one block of lines for each lexeme of the word, in the order of the roles: two lines for each morpheme of the longer of its flexion and content, four cells each; the first line has the translations of the lexeme and the name of the role, the second the role; each morpheme has a line with its translations and a line with its text, the empty morpheme two blank cells; all cells of a block have the color of the first place of the role. A table is made exactly when every role has a lexeme, the word is no junction at the top and the language is known.", "quantifier": "every word the constructors accept, every dictionary of values without line breaks and separators, every language, every escaping of characters that adds no separators", "why_tests_cant": "Words have any number of roles and morphemes, and the dictionary any values; the text must be read back for all of them.", "anchors": ["scripts/word_to_latex.py: 21-136", "ieml/usl/constants.py: NAMES_TO_ADDRESS (237-298)", "ieml/ieml_database/descriptors.py: normalize_key (23), get_values (72-82)"]}
{"id": "C100", "title": "The views of the relations of a dictionary", "statement": "For a script of the dictionary, relation(s, t) lists, in the order of RELATIONS, exactly the relations r for which t is among the objects object(s, r); seen from t the inverse relations are listed; the identity relates a script with itself only. pandas has one row for each pair of related scripts and each of their relations, no row twice, and with each row that of the inverse relation. boolean_matrix is square, symmetric, true on the diagonal, and true exactly where two scripts are related. A script outside the dictionary raises KeyError.", "quantifier": "every dictionary the constructor accepts, all scripts, all relations", "why_tests_cant": "Dictionaries have any number of scripts, roots and tables; the symmetry must hold for every pair in every dictionary.", "anchors": ["ieml/dictionary/relation/relations.py: 20, 28-58", "ieml/constants.py: RELATIONS (159-178)"]}
{"id": "C101", "title": "The table relations of a dictionary", "statement": "Two scripts of a dictionary are in the relation table_k exactly when a table of rank k contains both; for k = 0, when one root contains both.", "quantifier": "every dictionary the constructor accepts, all its scripts, every rank", "why_tests_cant": "The relation is computed from matrices over all scripts and all pairs of tables; it must agree with the containment of words for every dictionary.", "anchors": ["ieml/dictionary/relation/relations.py: _compute_table_rank (112-145)", "ieml/dictionary/table/table.py: 12-13, 198-199", "ieml/dictionary/table/table_structure.py: 91-117"]}
{"id": "C102", "title": "The father relations of a dictionary", "statement": "The objects of a script for father_substance, father_attribute and father_mode are the scripts of the dictionary nearest to this role in one of its terms: the role itself if it is in the dictionary or has no roles, otherwise the nearest ones of its own roles or terms. An object has a lower layer.", "quantifier": "every dictionary the constructor accepts, all scripts, the three roles", "why_tests_cant": "Scripts nest to any depth allowed by the layers, and whether the search goes on depends on what the dictionary holds.", "anchors": ["ieml/dictionary/relation/relations.py: _compute_father (167-203)"]}
{"id": "C103", "title": "The tree of the tables of a dictionary does not depend on the order of the sets", "statement": "Two runs of the constructor on the same data, whatever order Python iterates its sets in, give the same roots, scripts, tables, parents and relations. The parent of a table is the accepting table whose script comes first; a paradigm within a root is kept exactly when it is the root or another table accepts it.", "quantifier": "all data from which the constructor makes dictionaries, all orders of iteration of the sets", "why_tests_cant": "A test runs with the order of one process; the claim is about all orders of hashing and about every set of paradigms.", "anchors": ["ieml/dictionary/table/table_structure.py: 52-117", "ieml/dictionary/dictionary.py: 13-67"]}
{"id": "C104", "title": "The rules that move the scripts of a root move exactly their words", "statement": "Each rule of scripts/dictionary_tools.py (rotations, splitting or promoting the substance, inserting or removing t. and f., the translations of single roots) applied to a script of the shape in its comment returns a script whose words are exactly the words of the script laid out in the new way; the rule is one-to-one on words, and a script is within a root exactly when the moved script is within the moved root. This holds for every paradigm of the root.", "quantifier": "all rules, all scripts and roots of every layer", "why_tests_cant": "The commented-out test of the file compares one text per rule; the claim is about every paradigm of a root and about which words it has afterwards.", "anchors": ["scripts/dictionary_tools.py: 47-134", "scripts/dictionary_tools.py: 226-234", "scripts/dictionary_tools.py: 293-381", "ieml/dictionary/script/operator.py: 9-14"]}
{"id": "C105", "title": "The checks of flexions accept exactly one morpheme of each family at most", "statement": "check_lexeme_scripts(flexion, content, sfun) raises nothing exactly when every script of the flexion is empty or a singular sequence of one of the families of flexions allowed for the kind of role (process, actant or dependant quality, independant quality), and no two scripts of the flexion are of the same family; otherwise it raises ValueError. The order of the scripts and empty scripts do not matter.", "quantifier": "all lists of scripts, all syntagmatic functions", "why_tests_cant": "There is no test of these checks; the claim ranges over all lists of scripts of any length and the words of sixteen families.", "anchors": ["ieml/usl/constants.py: check_lexeme_scripts", "ieml/usl/constants.py: check_flexion_process_scripts", "ieml/usl/constants.py: check_flexion_actant_scripts", "ieml/usl/constants.py: check_flexion_quality", "ieml/usl/constants.py: assert_all_in", "ieml/usl/constants.py: assert_atmost_one_from"]}
{"id": "C106", "title": "The lookups of roles find exactly the listed roles", "statement": "In a syntagmatic function read from a list of roles, get finds the lexeme of every listed role, with or without its prefix and for any valence of a process, and raises KeyError for every role that is no role of the function; role_in returns the role of each part of the function; role_is_junction holds exactly for the roles followed by a junction in the listed roles; a role is the junction prefix of the roles that follow it by a junction and an index; get_paradigm returns the parts at the scripts of the role.", "quantifier": "all lists of roles accepted by from_list, all roles", "why_tests_cant": "The lookups are not tested; the claim ranges over functions with junctions nested to any depth.", "anchors": ["ieml/usl/syntagmatic_function.py: 46-49", "ieml/usl/syntagmatic_function.py: 71-77", "ieml/usl/syntagmatic_function.py: 83-103", "ieml/usl/syntagmatic_function.py: 121-125"]}
{"id": "C107", "title": "Sorting USLs by proximity and the matrix of the orders", "statement": "QuerySort(u).sort(collection) returns the USLs of the collection, each closer one (more semes in common for the number of semes by which it differs) after the less close ones, the USLs with the semes of u at the end and equally close ones in their order; proximity is symmetric; and for each u at index i, the USLs of usl_list at the indexes of the row i of square_order_matrix are the list sorted from u.", "quantifier": "all finite sets of semes, all lists of USLs", "why_tests_cant": "The file is not tested (it names a class it does not import); the claim is about all lists and all sets of semes, and the exchange of ranks and indexes does not show on short lists.", "anchors": ["ieml/usl/distance/sort.py: square_order_matrix", "ieml/usl/distance/sort.py: QuerySort.sort", "ieml/usl/distance/sort.py: QuerySort._proximity"]}
{"id": "C108", "title": "The projection of USLs on the dictionary maps each table to the USLs that have a cell of it", "statement": "project_usls_on_dictionary(usls, allowed_terms) returns, for each table that contains a singular sequence of a term of one of the USLs (and that is allowed, if allowed terms are given), the USLs that have a singular sequence of that table; project_usl_with_data adds the posts of these USLs, each once, and sorts the tables by the number of posts times the number of met cells, the largest first.", "quantifier": "all dictionaries (terms, cells, tables), all lists of USLs, all allowed terms", "why_tests_cant": "The file is not tested; the claim ranges over all dictionaries and all collections, and the error with allowed terms appears only for tables of which some cell is not met.", "anchors": ["ieml/usl/distance/projection.py: project_usls_on_dictionary", "ieml/usl/distance/projection.py: project_usl_with_data"]}
{"id": "C109", "title": "The ranking of words puts each word in the first class it belongs to", "statement": "order_word_list(w0, l) returns one group for each mark that a word of l has, the marks in increasing order, the words of each group in the order of l; the mark of a word is that of the first class it belongs to: associated, opposed or crossed with w0 (A), sharing a term with w0 (B), having a term related to a term of w0 (C), root equal to flexing (D), any other (E); within B and C the second character says where most of the terms are shared.", "quantifier": "all words, all lists of words, all relations of terms", "why_tests_cant": "The file is not tested; the claim is about all lists of words and relations.", "anchors": ["ieml/usl/distance/order.py: order_word_list", "ieml/usl/distance/order.py: count_id", "ieml/usl/distance/order.py: count_relations", "ieml/usl/distance/order.py: w_associate", "ieml/usl/distance/order.py: w_opposed", "ieml/usl/distance/order.py: w_crossed", "ieml/usl/distance/order.py: w_twin"]}
{"id": "C110", "title": "The rules of migrate_script.py move exactly the scripts of their root, and the program moves what is stored for them", "statement": "Each of migrate_sOOF, migrate_EMOto, migrate_EOOMt0, migrate_EOETI, translate_temps and migrate_tidi returns a script unchanged unless all its singular sequences are in the root of the rule; otherwise it returns a script of the layer of the new root, with as many singular sequences, each of them one of the script laid out in the new way; the result is within the new root and outside the old one, two scripts with different meanings stay different, and the root is sent to the new root. migrate(function, old, new) refuses a function that does not send old to new, moves the settings and descriptors of exactly the scripts of the dictionary that the function changes, leaves the others as they are, and leaves the repository unchanged when it stops with an error.", "quantifier": "all six rules, all scripts that can be built, all consistent databases, all points of failure", "why_tests_cant": "The script is not tested and runs once on a remote repository; the claim is about every script within a root and every database.", "anchors": ["scripts/migrate_script.py: migrate_sOOF", "scripts/migrate_script.py: migrate_EMOto", "scripts/migrate_script.py: migrate_EOOMt0", "scripts/migrate_script.py: migrate_EOETI", "scripts/migrate_script.py: translate_temps", "scripts/migrate_script.py: migrate_tidi", "scripts/migrate_script.py: migrate"]}
{"id": "C111", "title": "The export writes each relation between two terms once in each direction, under identifiers that differ", "statement": "_get_drupal_utils gives every term of the dictionary an identifier between 1000 and 20998 and raises when two terms would have the same one; drupal_relations_dump returns, for any two different terms of the list, the row (a, r, b) exactly when a has the relation r to b, r one of the twelve exported relations, each row once and with the type of the relation; number keeps the first rows; a term without identifier or another relation raises KeyError.", "quantifier": "all lists of terms, orders, relations and digests", "why_tests_cant": "The script is not tested; whether the rows have the right direction depends on the order of the list of terms, over all dictionaries.", "anchors": ["scripts/export.py: _get_drupal_utils", "scripts/export.py: drupal_relations_dump", "ieml/constants.py: INVERSE_RELATIONS"]}
{"id": "C112", "title": "Comparing versions of the dictionary finds the added and removed terms and the first version of a script", "statement": "diff(v0, v1) prints as deleted exactly the terms of v0 that are not in v1 and as added exactly those of v1 that are not in v0, each once; find_first_version_of_script(sc) returns the first version of the dictionary that has the script.", "quantifier": "all versions, all lists of versions, all scripts", "why_tests_cant": "The script is not tested and reads versions over the network; the claim is about every history of versions.", "anchors": ["scripts/version.py: diff", "scripts/version.py: find_first_version_of_script"]}
{"id": "C113", "title": "The rules that also accept sums move every word of the sum", "statement": "translate_mouvements_et_milieux removes f. from the substance of a product of layer 3, term by term when the substance is a sum, and undoes _insert_f_additive; translate_formes_visuelles replaces the first role of every term; translate_ocean sends every script of the old root to the new root, its words of M:.-'M:.-'n.-T:.A:.-', rotated and its words of s.-S:.U:.-'l.-S:.O:.-'n.-T:.A:.-', with the last two roles exchanged; each result has exactly the words moved this way.", "quantifier": "all scripts that can be built", "why_tests_cant": "The rules are not tested; the claim is about every paradigm of the roots, sums included.", "anchors": ["scripts/dictionary_tools.py: translate_mouvements_et_milieux", "scripts/dictionary_tools.py: translate_formes_visuelles", "scripts/dictionary_tools.py: translate_ocean"]}
{"id": "C114", "title": "The migration to version 0.4 keeps the table of descriptors and the structure", "statement": "migrate of migrate_v03Tov04.py, on a folder emptied of its files, writes for each root of the old structure the flag is_root and its inhibitions, and nothing else; and each row of the old descriptors is read back at the factorised form of its key, with the same values (newlines escaped). An inhibition that does not exist stops the program with ValueError. The last step of the program sets is_root to False for exactly the paradigms of the dictionary that are no roots.", "quantifier": "all tables of roots and descriptors, all readers of expressions, all folders", "why_tests_cant": "The migration is run once by hand; the claim is about every old table, with keys that have the same factorised form.", "anchors": ["scripts/migrate_versions/migrate_v03Tov04.py: migrate", "scripts/migrate_versions/migrate_v03Tov04.py lines 165-169"]}
{"id": "C115", "title": "The tools that generate objects give trees, retry only what is refused, and list the last version first", "statement": "_loop_result returns the first result that is not refused with InvalidIEMLObjectArgument among max_try calls, lets other exceptions through at once, and raises CantGenerateElement with the text of the last refusal otherwise. _build_graph_object gives a tree from the first element with the number of edges drawn, whose modes are no nodes, and ends whenever the pool has elements. from_type calls the method of the class. list_bucket gives the keys of all the objects, the last modified first, equal dates in the order of the answer.", "quantifier": "all outcomes of the calls, all draws, all pools, all answers", "why_tests_cant": "The draws are random and the loop may run for ever; a test sees a few of them.", "anchors": ["ieml/tools.py: _loop_result", "ieml/tools.py: RandomPoolIEMLObjectGenerator._build_graph_object", "ieml/tools.py: RandomPoolIEMLObjectGenerator.from_type", "ieml/tools.py: list_bucket"]}
{"id": "C116", "title": "The clean-up of translations keeps each piece once with single spaces", "statement": "clean_up_translations splits each translation at commas and bars, separates the words of each piece by one space and trims it, and keeps each piece once in the order of first occurrence; no value has a comma, a bar or other white space; cleaning again changes nothing; the other descriptors and the keys are left; every translation kept has a word.", "quantifier": "all tables, all texts (all Unicode white space)", "why_tests_cant": "The claim is about every text; the function has no test.", "anchors": ["scripts/migrate_versions/migrate_v01Tov02.py: clean_up_translations"]}
{"id": "C117", "title": "The program of the examples separates words from translations and leaves its output unchanged", "statement": "parse_examples.py cuts each line that is no comment at the hash that follows the word: the first part is the text between brackets, the second what follows the hash without the white space around. It writes one line for each, in order, with the text of the word read, and stops at the first line that is not of this form or whose word is refused. Run on its own output it writes the same file.", "quantifier": "all files, all readers of expressions", "why_tests_cant": "The program has no test; the claim is about every line, with brackets, hashes and white space anywhere in the translation.", "anchors": ["scripts/parse_examples.py: process_line", "scripts/parse_examples.py lines 33-37"]}
{"id": "C118", "title": "The import of series adds those that are defined with all their translations", "statement": "import_old_series adds as paradigms exactly the series whose morphemes are all in the dictionary, with the domain of their names and their translation, and sets the translations, separated at commas, of each of their sequences of several words whose morphemes are in the dictionary; three scripts are replaced by their new forms. It raises only when a document is missing, a script cannot be read, or a name is not that of a domain followed by a colon.", "quantifier": "all collections of documents, all dictionaries", "why_tests_cant": "The program has no test and needs a database that does not exist any more; the claim is about every series and every order of its sequences.", "anchors": ["scripts/migrate_versions/migrate_v02Tov03.py: import_old_series", "scripts/migrate_versions/migrate_v02Tov03.py: migrate_morpheme"]}
