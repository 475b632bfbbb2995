{
 "claims": [
  {
   "property": "C01",
   "status": "proved",
   "theorems": [
    "Verif.C01_enumeration_exact"
   ],
   "note": ""
  },
  {
   "property": "C02",
   "status": "proved",
   "theorems": [
    "Verif.C02_cardinal"
   ],
   "note": ""
  },
  {
   "property": "C03",
   "status": "proved",
   "theorems": [
    "Verif.C03_singular_layer_sorted"
   ],
   "note": ""
  },
  {
   "property": "C04",
   "status": "partial",
   "theorems": [
    "Verif.C04_no_repetition_partial",
    "Verif.C04_violated"
   ],
   "note": "The claim is false: U:.+O:. lists U:. twice (C04_violated). Proved: no repetition iff the terms of every sum share no word."
  },
  {
   "property": "C05",
   "status": "partial",
   "theorems": [
    "Verif.C05_sum_is_union_partial",
    "Verif.C05_sum_sound",
    "Verif.C05_violated"
   ],
   "note": "False when a term is itself a one-term sum (C05_violated). Proved for all other lists, with every error branch; soundness proved for all lists."
  },
  {
   "property": "C06",
   "status": "partial",
   "theorems": [
    "Verif.C06_order_and_repetition",
    "Verif.C06_grouping_partial",
    "Verif.C06_grouping_violated"
   ],
   "note": "Order and repetition proved for all lists. Grouping is false for one-term partial sums (C06_grouping_violated), proved for all others."
  },
  {
   "property": "C07",
   "status": "proved",
   "theorems": [
    "Verif.C07_product"
   ],
   "note": "Full decision, including every error branch."
  },
  {
   "property": "C08",
   "status": "proved",
   "theorems": [
    "Verif.C08_text_identifies_singular",
    "Verif.C08_text_determines_meaning"
   ],
   "note": ""
  },
  {
   "property": "C09",
   "status": "proved",
   "theorems": [
    "Verif.C09_round_trip",
    "Verif.C09_stable"
   ],
   "note": "Every buildable script, all layers; also stability of read texts."
  },
  {
   "property": "C10",
   "status": "partial",
   "theorems": [
    "Verif.C10_strict_total_order_partial",
    "Verif.C10_violated"
   ],
   "note": "False with one-term sums (C10_violated); proved for all other scripts."
  },
  {
   "property": "C11",
   "status": "proved",
   "theorems": [
    "Verif.C11_inclusion",
    "Verif.C11_preorder"
   ],
   "note": ""
  },
  {
   "property": "C12",
   "status": "proved",
   "theorems": [
    "Verif.C12_script_class"
   ],
   "note": ""
  },
  {
   "property": "C13",
   "status": "partial",
   "theorems": [
    "Verif.C13_promote",
    "Verif.C13_add_partial"
   ],
   "note": "Promotion proved for all scripts and layers; mixed addition proved for scripts that are not one-term sums (see C05_violated for those)."
  },
  {
   "property": "C14",
   "status": "proved",
   "theorems": [
    "Verif.C14_factorize",
    "Verif.C14_sequences",
    "Verif.C14_text",
    "Verif.C14_list"
   ],
   "note": "For every script that can be built and every order in which Python iterates its sets: what factorize returns can be built, has the same layer, the same words and the same singular sequences, each once (C14_factorize, C14_sequences); the same for script(text, factorize=True) (C14_text). A list of scripts is factorised to the words of all of them padded to the highest layer (C14_list, up to 360 sequences in all)."
  },
  {
   "property": "C15",
   "status": "partial",
   "theorems": [
    "Verif.C15_violated",
    "Verif.C15_only_partial",
    "Verif.C15_factorable_partial",
    "Verif.C15_products_partial"
   ],
   "note": "Violated: U:U:U:.+U:A:A:.+A:U:A:.+A:A:U:.+A:A:A:. raises KeyError whatever the order of the sets (C15_violated). Proved: factorize returns or raises KeyError and nothing else, so it terminates (C15_only_partial); it returns for scripts whose words are, layer by layer, all combinations of their parts or vary in at most two roles (C15_factorable_partial), in particular for all scripts without sums above layer 0 (C15_products_partial)."
  },
  {
   "property": "C16",
   "status": "proved",
   "theorems": [
    "Verif.C16_cells_permutation",
    "Verif.C16_cells_permutation'"
   ],
   "note": "Permutation proved for every buildable script whose sequences have distinct texts; also that the tables are then defined unless a header is too long."
  },
  {
   "property": "C17",
   "status": "partial",
   "theorems": [
    "Verif.C17_too_wide_raises",
    "Verif.C17_raises_iff_partial",
    "Verif.C17_violated"
   ],
   "note": "False with overlapping sums: KeyError on a product whose only plural role lists a sequence twice (C17_violated). Proved: too long a header always raises; without overlapping sums, raises iff a header is too long, and then ValueError."
  },
  {
   "property": "C18",
   "status": "partial",
   "theorems": [
    "Verif.C18_violated",
    "Verif.C18_outcomes_partial"
   ],
   "note": "False: a grammatical text with more than 360 singular sequences raises TooManySingularSequences (C18_violated). Proved: the only outcomes are a buildable script, CannotParse or TooManySingularSequences."
  },
  {
   "property": "C19",
   "status": "partial",
   "theorems": [
    "Verif.C19_foreign_skipped",
    "Verif.C19_violated",
    "Verif.C19_only_foreign_partial"
   ],
   "note": "False: the lexer skips foreign characters (C19_violated, C19_foreign_skipped for every text and position). Proved: a text of foreign characters only is refused."
  },
  {
   "property": "C20",
   "status": "partial",
   "theorems": [
    "Verif.C20_roots_apart",
    "Verif.C20_paradigm_in_one_root",
    "Verif.C20_script_in_one_root_partial",
    "Verif.C20_violated"
   ],
   "note": "False for an ignored root: its singular sequences are kept and lie within no root (C20_violated). Proved: roots are disjoint, every paradigm kept lies within exactly one root, and every script when the keys are texts of scripts and no root is ignored."
  },
  {
   "property": "C21",
   "status": "partial",
   "theorems": [
    "Verif.C21_builds_partial",
    "Verif.C21_violated",
    "Verif.C21_reading_partial",
    "Verif.C21_relations_partial"
   ],
   "note": "False: NameError, KeyError, InvalidScript and IndexError on data with disjoint roots (C21_violated, seven witnesses). Proved: consistent data is always read (C21_reading_partial); the whole dictionary is always built when moreover the keys list each word once and are not too wide for tables, the roots have several words and no four paradigms are nested (C21_builds_partial); each of these conditions is needed. Missing: the claim with disjoint roots as only condition, which is false."
  },
  {
   "property": "C22",
   "status": "partial",
   "theorems": [
    "Verif.C22_membership",
    "Verif.C22_positions_partial",
    "Verif.C22_violated"
   ],
   "note": "False for a key that is not the text of its script, which is then listed twice (C22_violated). Proved for all dictionaries whose keys are texts of scripts; membership is unconditional."
  },
  {
   "property": "C23",
   "status": "partial",
   "theorems": [
    "Verif.C23_ranks_partial",
    "Verif.C23_parents",
    "Verif.C23_violated"
   ],
   "note": "False for the table structure: four nested paradigms give rank 7 (C23_violated). Proved: in every dictionary that is built the ranks are at most 6, and 6 exactly for the cells."
  },
  {
   "property": "C24",
   "status": "proved",
   "theorems": [
    "Verif.C24_inverse",
    "Verif.C24_inverse_involutive"
   ],
   "note": "For every built dictionary, relation and pair of scripts."
  },
  {
   "property": "C25",
   "status": "partial",
   "theorems": [
    "Verif.C25_contains_iff",
    "Verif.C25_contains_preorder",
    "Verif.C25_contains_same_root",
    "Verif.C25_contains_in_root_partial",
    "Verif.C25_violated_root",
    "Verif.C25_violated_antisymmetry"
   ],
   "note": "Inclusion, reflexivity, transitivity and the common root of different scripts are unconditional. The common root fails for an ignored root (C25_violated_root); antisymmetry fails for two texts with the same words (C25_violated_antisymmetry)."
  },
  {
   "property": "C26",
   "status": "proved",
   "theorems": [
    "Verif.C26_sibling_iff",
    "Verif.C26_irreflexive",
    "Verif.C26_symmetric",
    "Verif.C26_opposed_associated"
   ],
   "note": "Exact characterisation by the children, irreflexivity and symmetry; exclusivity is the characterisation, the rules overlap (C26_opposed_associated)."
  },
  {
   "property": "C27",
   "status": "partial",
   "theorems": [
    "Verif.C27_inhibited_partial",
    "Verif.C27_violated"
   ],
   "note": "Proved for the sibling relations. False for the relations with the roles: line 196 of relations.py looks for the name of the relation among the roots (C27_violated)."
  },
  {
   "property": "C28",
   "status": "proved",
   "theorems": [
    "Verif.C28_line",
    "Verif.C28_read_back",
    "Verif.C28_blank",
    "Verif.C28_refused",
    "Verif.C28_history",
    "Verif.C28_trimmed",
    "Verif.C28_trimmed_unique"
   ],
   "note": "For every history of add and remove operations whose texts are on one line; the blank value and refused arguments are separate theorems. The CSV reader is modelled; the conversion of NA-like words by pandas is not. What strip removes is proved against the list of blank characters (C28_trimmed)."
  },
  {
   "property": "C29",
   "status": "partial",
   "theorems": [
    "Verif.C29_remove_partial",
    "Verif.C29_exact_partial",
    "Verif.C29_violated_prefix",
    "Verif.C29_violated_key"
   ],
   "note": "False: removing a also removes a\"b (C29_violated_prefix), and nothing is removed for keys with quotation marks (C29_violated_key). Proved: the exact set of values kept, for every key without quotation marks."
  },
  {
   "property": "C30",
   "status": "partial",
   "theorems": [
    "Verif.C30_value_filter_partial",
    "Verif.C30_language_omitted",
    "Verif.C30_descriptor_omitted",
    "Verif.C30_violated_language",
    "Verif.C30_violated_descriptor"
   ],
   "note": "False: the value is ignored as soon as the language or the descriptor is omitted (C30_violated_language, C30_violated_descriptor). Proved: what is erased in each of these cases, and the filter when both are given."
  },
  {
   "property": "C31",
   "status": "partial",
   "theorems": [
    "Verif.C31_distinct_partial",
    "Verif.C31_same_line",
    "Verif.C31_violated"
   ],
   "note": "False: a line break and a backslash followed by n have the same line (C31_violated). Proved: the exact condition for equal lines; distinct lines for values without line breaks."
  },
  {
   "property": "C32",
   "status": "partial",
   "theorems": [
    "Verif.C32_set_partial",
    "Verif.C32_repeat_partial",
    "Verif.C32_violated_newline",
    "Verif.C32_violated_key",
    "Verif.C32_violated_return"
   ],
   "note": "False with line breaks, carriage returns and keys with quotation marks (C32_violated_newline, C32_violated_return, C32_violated_key). Proved for one-line values and keys without quotation marks, the file of the key holding no other key."
  },
  {
   "property": "C33",
   "status": "proved",
   "theorems": [
    "Verif.C33_set_inhibitions",
    "Verif.C33_flags",
    "Verif.C33_refused"
   ],
   "note": "For structure files made of complete lines in the file of their key, and a root that has another setting (its is_root flag)."
  },
  {
   "property": "C34",
   "status": "proved",
   "theorems": [
    "Verif.C34_separate",
    "Verif.C34_length",
    "Verif.C34_folder"
   ],
   "note": "sha224 is an opaque function with ten characters of output; file system case folding is not modelled."
  },
  {
   "property": "C35",
   "status": "proved",
   "theorems": [
    "Verif.C35_descriptor_keys",
    "Verif.C35_descriptor_idempotent",
    "Verif.C35_structure_keys",
    "Verif.C35_structure_idempotent"
   ],
   "note": "json.loads is modelled on the lower-cased words true and false with surrounding JSON spaces; other JSON values are refused by the type check."
  },
  {
   "property": "C36",
   "status": "partial",
   "theorems": [
    "Verif.C36_refused",
    "Verif.C36_nothing",
    "Verif.C36_commit",
    "Verif.C36_rollback_partial",
    "Verif.C36_rollback_all",
    "Verif.C36_violated_hidden"
   ],
   "note": "False for hidden paths: files starting with a point created by the body stay and changed ones are silently restored (C36_violated_hidden). Proved: refusal, no commit without changes, one commit with the complete visible tree, and roll back of all visible files; C36_rollback_all when no hidden file is touched. libgit2 is represented by its effect on commits, branch, index and working tree."
  },
  {
   "property": "C37",
   "status": "partial",
   "theorems": [
    "Verif.C37_pull_partial",
    "Verif.C37_forward",
    "Verif.C37_violated_deleted",
    "Verif.C37_violated_structure",
    "Verif.C37_unique"
   ],
   "note": "False when the descriptor was deleted locally or all conflicts are about structure files: NameError (C37_violated_deleted, C37_violated_structure). Proved otherwise for every base, local and remote tree; the line merge of libgit2 is any function."
  },
  {
   "property": "C38",
   "status": "partial",
   "theorems": [
    "Verif.C38_recompute_partial",
    "Verif.C38_one_file",
    "Verif.C38_violated",
    "Verif.C38_violated_modified"
   ],
   "note": "False: the digest is taken on names and contents without delimiters (C38_violated, C38_violated_modified, for every digest). Proved: recomputed whenever the digests differ; the text of the digest differs for every change of one file (C38_one_file)."
  },
  {
   "property": "C39",
   "status": "proved",
   "theorems": [
    "Verif.C39_interruptions",
    "Verif.C39_current",
    "Verif.C39_unchanged"
   ],
   "note": "Unconditional while the folder stays (C39_unchanged); across changes of the folder a value of an earlier folder is returned only when it has the same digest (see C38)."
  },
  {
   "property": "C40",
   "status": "partial",
   "theorems": [
    "Verif.C40_watched_partial",
    "Verif.C40_violated",
    "Verif.C40_listed"
   ],
   "note": "False: descriptors of polymorphemes, lexemes and words are not watched (C40_violated). Proved: the list is the one of a folder of the history with the same watched files, if no two of them have the same digest."
  },
  {
   "property": "C41",
   "status": "partial",
   "theorems": [
    "Verif.C41_normal_form_partial",
    "Verif.C41_contents",
    "Verif.C41_violated"
   ],
   "note": "False with one-term sums of several words (C41_violated). Proved for all morphemes whose one-term sums have a single word, any rearrangement and any empty morphemes added or removed."
  },
  {
   "property": "C42",
   "status": "partial",
   "theorems": [
    "Verif.C42_multiplicity_partial",
    "Verif.C42_violated"
   ],
   "note": "False: m1(U:) m1(S: B: T:) has the sequence U: S: B: (C42_violated). Proved unless the multiplicity equals the smallest group size and the group is larger."
  },
  {
   "property": "C43",
   "status": "partial",
   "theorems": [
    "Verif.C43_sequences_partial",
    "Verif.C43_violated"
   ],
   "note": "False without constants: the empty sequence is listed and five morphemes are not (C43_violated). Proved: the exact set of sequences of every polymorpheme, each once, E: counting as a morpheme when there are no constants."
  },
  {
   "property": "C44",
   "status": "partial",
   "theorems": [
    "Verif.C44_nonempty_iff_partial",
    "Verif.C44_violated"
   ],
   "note": "False: six constants and a group (C44_violated). Proved: there is a sequence exactly when there are no groups or at most 5 different constants."
  },
  {
   "property": "C45",
   "status": "proved",
   "theorems": [
    "Verif.C45_order_preserved",
    "Verif.C45_negative"
   ],
   "note": "The depth limit of the Python interpreter is not modelled."
  },
  {
   "property": "C46",
   "status": "proved",
   "theorems": [
    "Verif.C46_index_identifies",
    "Verif.C46_groups_ignored",
    "Verif.C46_unknown"
   ],
   "note": "Also KeyError for a morpheme outside the dictionary."
  },
  {
   "property": "C47",
   "status": "partial",
   "theorems": [
    "Verif.C47_polymorpheme_partial",
    "Verif.C47_lexeme_partial",
    "Verif.C47_violated_old_class",
    "Verif.C47_violated_silently",
    "Verif.C47_violated_empty_group",
    "Verif.C47_violated_empty"
   ],
   "note": "Lexer and parser of USLs modelled. The text of every polymorpheme with at least one morpheme and of every lexeme reads back as the same object (a lone morpheme as itself), for morphemes that do not start with E:.b.E:X:.- and groups that are not empty. Violated otherwise: E:.b.E:S:.- (B, T) is refused, E:.b.E:U:.- silently reads as b.E:U:.-, an empty group is refused, the empty polymorpheme reads as E:."
  },
  {
   "property": "C48",
   "status": "partial",
   "theorems": [
    "Verif.C48_lexeme_partial",
    "Verif.C48_lexeme_total",
    "Verif.C48_violated_lexeme",
    "Verif.C48_word_partial",
    "Verif.C48_violated_word"
   ],
   "note": "Proved: cardinals multiply, and the sequences are the products, in order. Violated where the flexion and content have one sequence but a group: the lexeme is its own sequence (C48_violated_lexeme); and for words with a role without lexeme: AttributeError (C48_violated_word)."
  },
  {
   "property": "C49",
   "status": "proved",
   "theorems": [
    "Verif.C49_round_trip",
    "Verif.C49_injective",
    "Verif.C49_addresses"
   ],
   "note": "for every list accepted by from_list, any nesting depth; C49_addresses ties texts to scripts"
  },
  {
   "property": "C50",
   "status": "partial",
   "theorems": [
    "Verif.C50_errors_partial",
    "Verif.C50_plain_partial",
    "Verif.C50_violated"
   ],
   "note": "violated: IndexError escapes in five shapes (C50_violated); only ValueError and IndexError can be raised and recursion ends (C50_errors_partial); no IndexError on lists without junctions and without clashing independant roles (C50_plain_partial)"
  },
  {
   "property": "C51",
   "status": "partial",
   "theorems": [
    "Verif.C51_polymorpheme_partial",
    "Verif.C51_checked_partial",
    "Verif.C51_violated_twice",
    "Verif.C51_violated_multiplicity",
    "Verif.C51_violated_groups",
    "Verif.C51_violated_empty_group",
    "Verif.C51_lexeme_partial",
    "Verif.C51_violated_flexion",
    "Verif.C51_word_partial",
    "Verif.C51_violated_focus",
    "Verif.C51_mixed"
   ],
   "note": "Polymorphemes with legible morphemes, at most three groups, multiplicities 1 to 9 and no morpheme twice in the constants or in a group are assembled again from their paths and morphemes; so are those that the check of the library accepts (with at most three groups), the lexemes whose flexion is made of the families of flexions of the library (each constant alone of its family, each group inside one family with multiplicity 1), and the words of such lexemes whose role is the address of an actor. The claim is false for repeated morphemes, multiplicities 0 and of two digits, four groups, empty groups, other flexions, and words whose role is a junction; each case has a witness. The order in which Python iterates sets is a parameter."
  },
  {
   "property": "C52",
   "status": "partial",
   "theorems": [
    "Verif.C52_polymorpheme",
    "Verif.C52_lexeme_partial",
    "Verif.C52_lexeme_iff",
    "Verif.C52_word_listed",
    "Verif.C52_word_partial",
    "Verif.C52_word_iff",
    "Verif.C52_violated",
    "Verif.C52_morpheme_iff"
   ],
   "note": "Polymorphemes: every listed path reaches exactly its value. Lexemes and words built from lists of roles: every listed path but those ending with >flexion reaches its value, and all of them exactly when no flexion has a group. Violated otherwise: >flexion is listed again with the constants and the groups (C52_violated). The listing raises AttributeError exactly when a role has no lexeme (C52_word_listed)."
  },
  {
   "property": "C53",
   "status": "partial",
   "theorems": [
    "Verif.C53_reflexive",
    "Verif.C53_meaning_partial",
    "Verif.C53_transitive_partial",
    "Verif.C53_concat_partial",
    "Verif.C53_append_partial",
    "Verif.C53_split_partial",
    "Verif.C53_split_usl",
    "Verif.C53_remove_partial",
    "Verif.C53_violated_transitive",
    "Verif.C53_violated_raises",
    "Verif.C53_violated_concat",
    "Verif.C53_violated_force",
    "Verif.C53_violated_split",
    "Verif.C53_violated_split_usl"
   ],
   "note": "Reflexivity holds for all paths. The meaning of has_prefix, transitivity, concatenation and splitting are proved for paths whose polymorpheme nodes come last (which the constructors enforce except below UslPath); violated otherwise (C53_violated_*)."
  },
  {
   "property": "C54",
   "status": "proved",
   "theorems": [
    "Verif.C54_construction",
    "Verif.C54_clean",
    "Verif.C54_from_usl",
    "Verif.C54_sequences"
   ],
   "note": "For any objects, any deference and listing, any decorations (including arguments that are not decorations), any literals before, and every way the construction ends; also for from_usl and for the nested contexts of the singular sequences. A literal that a decorated component had before is lost. Constructions that overlap: C98."
  },
  {
   "property": "C55",
   "status": "partial",
   "theorems": [
    "Verif.C55_exact",
    "Verif.C55_partial",
    "Verif.C55_from_usl",
    "Verif.C55_violated_shared",
    "Verif.C55_violated_lost",
    "Verif.C55_violated_flexion",
    "Verif.C55_refused",
    "Verif.C55_role"
   ],
   "note": "Exact description of what is listed for any objects (C55_exact). The first decoration that reaches no object is refused, none is left out silently (C55_refused); the identity of the lexeme of a role is that of the lexeme found by get (C55_role). Proved for all USLs whose components reached by the decorations occur once: the decorations listed are those given, path by path, up to their order (C55_partial); from_usl gives exactly the literals found (C55_from_usl). Violated: a morpheme that occurs twice gets the decoration at both places, the decorations of the constants, of a group and of E: are lost, a flexion path on a polymorpheme raises AssertionError (witnesses). Identities of scripts are keys of their texts, following the memo of the script parser."
  },
  {
   "property": "C56",
   "status": "proved",
   "theorems": [
    "Verif.C56_order_of_last_assignment",
    "Verif.C56_no_spurious_error",
    "Verif.C56_lookup"
   ],
   "note": "Every history of assignments and deletions."
  },
  {
   "property": "C57",
   "status": "partial",
   "theorems": [
    "Verif.C57_returns",
    "Verif.C57_exact",
    "Verif.C57_incomparable_partial",
    "Verif.C57_violated_morphemes",
    "Verif.C57_violated_group",
    "Verif.C57_violated_word"
   ],
   "note": "On the texts of the nodes: for every USL whose flexions have built morphemes, the combinations are exactly the sets of places of variation none of which continues another, each once, and the number is that of the places that no other one continues (C57_exact); it returns whenever the cardinals can be computed (C57_returns). With has_prefix, pairwise incomparable when the morphemes outside flexions are singular (C57_incomparable_partial). Violated with has_prefix by morphemes with several sequences; for words, the path > of the whole word is listed with its parts and counted (witnesses)."
  },
  {
   "property": "C58",
   "status": "proved",
   "theorems": [
    "Verif.C58_keys"
   ],
   "note": ""
  },
  {
   "property": "C59",
   "status": "proved",
   "theorems": [
    "Verif.C59_tables_split"
   ],
   "note": ""
  },
  {
   "property": "C60",
   "status": "proved",
   "theorems": [
    "Verif.C60_headers",
    "Verif.C60_headers_all"
   ],
   "note": "All four choices of plural roles, any sizes (C60_headers), and every other paradigm (C60_headers_all)."
  },
  {
   "property": "C61",
   "status": "partial",
   "theorems": [
    "Verif.C61_partial",
    "Verif.C61_indexed_partial",
    "Verif.C61_kept",
    "Verif.C61_violated"
   ],
   "note": "violated: a non-junction script before an index is silently replaced by the link of a later junction (C61_violated); no lexeme is lost or duplicated (C61_partial); addresses kept when every index follows a junction script, of the whole list (C61_indexed_partial) or of one address (C61_kept)"
  },
  {
   "property": "C62",
   "status": "partial",
   "theorems": [
    "Verif.C62_word_partial",
    "Verif.C62_violated_junction",
    "Verif.C62_violated_single_junction",
    "Verif.C62_violated_wrong_role",
    "Verif.C62_violated_missing",
    "Verif.C62_violated_old_class"
   ],
   "note": "Proved for all words whose actors are lexemes of legible polymorphemes (see C47) and whose role is the address of one of them: the text is read as the same word. Violated for junction roles, roles with another first script, missing lexemes and morphemes that look like old grammatical classes (witnesses)."
  },
  {
   "property": "C63",
   "status": "partial",
   "theorems": [
    "Verif.C63_partial",
    "Verif.C63_violated",
    "Verif.C63_violated_none"
   ],
   "note": "Proved for all lists that are list forms of the function read (no lexeme missing): any rearrangement gives the same function up to the order of the actants, and words with the same text. Violated in general: a quality before a junction is accepted, after it refused; a None before another lexeme at the same role is replaced, after it refused."
  },
  {
   "property": "C64",
   "status": "partial",
   "theorems": [
    "Verif.C64_without_morpheme",
    "Verif.C64_no_morpheme",
    "Verif.C64_as_constant_partial",
    "Verif.C64_as_constant_valid",
    "Verif.C64_as_constant_idempotent",
    "Verif.C64_violated_usl",
    "Verif.C64_violated_flexion"
   ],
   "note": "without_morpheme and the validity and idempotence of as_constant are proved for all paths; constancy for paths without a plain UslPath (C64_violated_usl). without_morpheme raises on a lone FlexionPath (C64_violated_flexion)."
  },
  {
   "property": "C65",
   "status": "partial",
   "theorems": [
    "Verif.C65_outcomes_partial",
    "Verif.C65_plain_partial",
    "Verif.C65_value_errors",
    "Verif.C65_violated"
   ],
   "note": "False: TooManySingularSequences, IndexError and UnboundLocalError escape (C65_violated). Proved for every text: nothing else escapes, ValueError is always converted; for texts of polymorphemes and lexemes only TooManySingularSequences. The construction of instances from decorations is not part of uslRead."
  },
  {
   "property": "C66",
   "status": "partial",
   "theorems": [
    "Verif.C66_read",
    "Verif.C66_written",
    "Verif.C66_reaches",
    "Verif.C66_listed_partial",
    "Verif.C66_stable",
    "Verif.C66_violated_multiplicity",
    "Verif.C66_violated_group",
    "Verif.C66_violated_prefix"
   ],
   "note": "Proved for all paths of the grammar (C66_read), hence for all listed paths of USLs whose multiplicities are at most 9 (C66_listed_partial); whatever is read is in the grammar (C66_written) and reading is stable. Violated by multiplicities of two digits (refused), by groups without multiplicity (the text changes) and, for has_prefix, by the path of the constants: listed without multiplicity, read with multiplicity 1."
  },
  {
   "property": "C67",
   "status": "partial",
   "theorems": [
    "Verif.C67_names_partial",
    "Verif.C67_violated",
    "Verif.C67_violated_claim"
   ],
   "note": "Proved for all sequences of scripts of addresses and names other than *10, *11 and *12 (C67_names_partial). Violated by these three: the regular expression tries *1 first."
  },
  {
   "property": "C68",
   "status": "partial",
   "theorems": [
    "Verif.C68_outcomes_partial",
    "Verif.C68_violated",
    "Verif.C68_violated_claim"
   ],
   "note": "All outcomes are characterised (C68_outcomes_partial): a path, CannotParse, TooManySingularSequences or, only when the text mentions group_3 to group_9, KeyError. Violated by group_3. Decimal digits other than ASCII ones are not modelled."
  },
  {
   "property": "C69",
   "status": "partial",
   "theorems": [
    "Verif.C69_never",
    "Verif.C69_violated"
   ],
   "note": "Violated for every input: create_root_paradigm never returns (C69_never); with a concrete database (C69_violated). The additions after the commit (lines 107-111) are not modelled, since they are not reached."
  },
  {
   "property": "C70",
   "status": "proved",
   "theorems": [
    "Verif.C70_accepts",
    "Verif.C70_added"
   ],
   "note": "Acceptance and effect, for every database that the library writes in which the script is filed in files of its own. Parsing and digests of file names are parameters (Ext); git commits are modelled apart (C35)."
  },
  {
   "property": "C71",
   "status": "partial",
   "theorems": [
    "Verif.C71_builds_partial",
    "Verif.C71_partial",
    "Verif.C71_violated_lost",
    "Verif.C71_violated_broken"
   ],
   "note": "False: an accepted paradigm whose words are not adjacent in a table is not in the dictionary afterwards (C71_violated_lost), and get_dictionary may raise IndexError afterwards (C71_violated_broken). Proved: the data stay consistent (so that scripts and roots can be read), the roots are the same, the paradigm is listed when a descriptor is not blank; the dictionary can be read again when the listed keys fit (tables, words once), and the paradigm is not the fourth of nested ones (C71_builds_partial)."
  },
  {
   "property": "C72",
   "status": "partial",
   "theorems": [
    "Verif.C72_builds_partial",
    "Verif.C72_readable_partial",
    "Verif.C72_accepts",
    "Verif.C72_singular",
    "Verif.C72_deleted_partial",
    "Verif.C72_root_accepts",
    "Verif.C72_root_deleted_partial",
    "Verif.C72_violated_root",
    "Verif.C72_violated_last"
   ],
   "note": "Acceptance and effect proved; the settings are unreadable when none is left. Violated: roots are deleted as paradigms (C72_violated_root), after the deletion of the last root the dictionary cannot be read (C72_violated_last). The data stay consistent after the deletion of a paradigm that is not a root (C72_readable_partial), and the dictionary can be read again when the listed keys fit (C72_builds_partial)."
  },
  {
   "property": "C73",
   "status": "partial",
   "theorems": [
    "Verif.C73_builds_partial",
    "Verif.C73_readable_partial",
    "Verif.C73_root",
    "Verif.C73_never",
    "Verif.C73_root_never",
    "Verif.C73_accepts",
    "Verif.C73_moved",
    "Verif.C73_violated",
    "Verif.C73_root_fixed"
   ],
   "note": "Acceptance and effect proved for paradigms that are not roots (C73_accepts, C73_moved), and that the data stay consistent and the dictionary can be read again when the keys fit (C73_builds_partial). Violated: a root cannot be extended (C73_never, for every database), a paradigm can be moved out of all roots (C73_violated). A root keeps its words (C73_root), so by the uniqueness of the factored form (C74) it cannot be updated to any different script (C73_root_fixed; C73_root_never is the earlier form without the empty word)."
  },
  {
   "property": "C74",
   "status": "proved",
   "theorems": [
    "Verif.C74_canonical_partial",
    "Verif.C74_idempotent_partial",
    "Verif.C74_unique_partial",
    "Verif.C74_canonical",
    "Verif.C74_idempotent",
    "Verif.C74_unique"
   ],
   "note": "For every pair of buildable scripts, with the empty word, repeated sequences and one-term sums: C74_canonical (same words give the same factored text or the same exception), C74_idempotent, C74_unique. Scripts are compared by text, as Python does. The _partial theorems say more, equality of the representation, for scripts without the empty word. The set order is a function of the set of objects; two processes may order differently."
  },
  {
   "property": "C75",
   "status": "partial",
   "theorems": [
    "Verif.C75_checked_partial",
    "Verif.C75_checked_sort_partial",
    "Verif.C75_total_partial",
    "Verif.C75_trans_partial",
    "Verif.C75_congr_partial",
    "Verif.C75_sort_partial",
    "Verif.C75_violated_junction",
    "Verif.C75_violated_missing",
    "Verif.C75_violated_equal",
    "Verif.C75_violated_context",
    "Verif.C75_violated_script",
    "Verif.C75_violated_instance",
    "Verif.C75_violated_sum"
   ],
   "note": "Proved for polymorphemes of orderly morphemes, lexemes of these, and words of these lexemes without junctions and with a lexeme at each role (C75_total_partial, C75_trans_partial, C75_congr_partial, C75_sort_partial). For USLs read from a text and accepted by their check no condition on the morphemes is left, words only without junctions (C75_checked_partial, C75_checked_sort_partial). Violated: junctions and missing lexemes raise (C75_violated_junction, C75_violated_missing), equal words of which one is smaller (C75_violated_equal, C75_violated_context), scripts (C75_violated_script), instances (C75_violated_instance), one-term sums (C75_violated_sum)."
  },
  {
   "property": "C76",
   "status": "partial",
   "theorems": [
    "Verif.C76_again_partial",
    "Verif.C76_polymorpheme",
    "Verif.C76_lexeme",
    "Verif.C76_read",
    "Verif.C76_read_polymorpheme",
    "Verif.C76_polymorpheme_partial",
    "Verif.C76_lexeme_partial",
    "Verif.C76_word_partial",
    "Verif.C76_violated_read",
    "Verif.C76_violated_role"
   ],
   "note": "Equivalences proved for all polymorphemes, lexemes and words that were read (C76_polymorpheme, C76_lexeme, C76_read, C76_read_polymorpheme) and for words made from lists of roles with a role that begins like those of the context (C76_word_partial, with C76_polymorpheme_partial and C76_lexeme_partial); the text of a tidy word that is accepted is read as a word that is accepted (C76_again_partial). Violated: the parser accepts words that the check refuses (C76_violated_read); the check accepts a role that is not one of the word (C76_violated_role)."
  },
  {
   "property": "C77",
   "status": "partial",
   "theorems": [
    "Verif.C77_simplify_partial",
    "Verif.C77_blank_process",
    "Verif.C77_junction_root",
    "Verif.C77_violated_junction"
   ],
   "note": "Proved for words without junctions, with a lexeme written somewhere or the verb as role in processes (C77_simplify_partial: result, order, exact set of kept roles, idempotence). Violated: processes with nothing written raise ValueError (C77_blank_process, for all of them), junction words raise TypeError (C77_junction_root, for all of them), inner junctions raise IndexError or are replaced by None (C77_violated_junction)."
  },
  {
   "property": "C78",
   "status": "partial",
   "theorems": [
    "Verif.C78_lexeme_partial",
    "Verif.C78_given",
    "Verif.C78_word_partial",
    "Verif.C78_never_empty",
    "Verif.C78_violated"
   ],
   "note": "Proved for morphemes among which < is an order (C78_lexeme_partial, C78_word_partial: the listed set, each once, sorted; AttributeError exactly with junctions or missing lexemes). Violated: the empty morpheme is listed whenever a polymorpheme has no constants (C78_given, exact), and no word is ever empty (C78_never_empty, C78_violated)."
  },
  {
   "property": "C79",
   "status": "partial",
   "theorems": [
    "Verif.C79_self",
    "Verif.C79_trans",
    "Verif.C79_polymorpheme_sequences",
    "Verif.C79_lexeme_sequences",
    "Verif.C79_word_sequences",
    "Verif.C79_singular",
    "Verif.C79_polymorpheme_partial",
    "Verif.C79_members",
    "Verif.C79_lexeme_partial",
    "Verif.C79_word_partial",
    "Verif.C79_violated_lexeme",
    "Verif.C79_violated_order",
    "Verif.C79_violated_empty",
    "Verif.C79_violated_script"
   ],
   "note": "Reflexivity and transitivity proved for all elements (C79_self, C79_trans), sequences are members of length 1 (C79_polymorpheme_sequences, C79_lexeme_sequences, C79_word_sequences), exact criteria for polymorphemes, lexemes and words without junctions (C79_polymorpheme_partial, C79_lexeme_partial, C79_word_partial). Violated: lexemes that are their own sequence are not compared part by part (C79_violated_lexeme), different polymorphemes may each be in the other (C79_violated_order), a polymorpheme without sequence is in everything (C79_violated_empty), a script may be in a polymorpheme but never the converse (C79_violated_script)."
  },
  {
   "property": "C80",
   "status": "partial",
   "theorems": [
    "Verif.C80_table_partial",
    "Verif.C80_row_cells_partial",
    "Verif.C80_violated_columns",
    "Verif.C80_violated_outside",
    "Verif.C80_violated_multiplicity",
    "Verif.C80_violated_flexion",
    "Verif.C80_violated_focus"
   ],
   "note": "Proved for polymorphemes of at most three groups and the paths of whole groups, with rows or without (C80_table_partial: exact cells, rows and columns, all orders of sets; C80_row_cells_partial: the sequences of a row USL are its cells). Violated: column USLs hold all the morphemes of the rows as constants (C80_violated_columns), cells may be no sequence of the USL (C80_violated_outside), paths without the multiplicity are not recognised (C80_violated_multiplicity). The sort keys raise KeyError for flexions that vary beside constant ones (C80_violated_flexion) and ValueError when the columns or rows are the whole role with the focus (C80_violated_focus). Missing: general theorems for words, lexemes, paths of constants."
  },
  {
   "property": "C81",
   "status": "partial",
   "theorems": [
    "Verif.C81_error",
    "Verif.C81_listed_partial",
    "Verif.C81_once_partial",
    "Verif.C81_dictionary",
    "Verif.C81_parsed_partial",
    "Verif.C81_parsed_dictionary",
    "Verif.C81_violated_paradigm",
    "Verif.C81_paradigm_ignored",
    "Verif.C81_empty_type",
    "Verif.C81_class_names",
    "Verif.C81_parsed_errors",
    "Verif.C81_violated_quote",
    "Verif.C81_violated_class"
   ],
   "note": "Proved for keys without quotation mark and without white space at the ends (C81_listed_partial, C81_parsed_partial) and, if no two keys share a file, each once (C81_once_partial); the only error is a missing folder (C81_error); the dictionary is made of this list (C81_dictionary). Violated: paradigm is ignored without a class (C81_paradigm_ignored, C81_violated_paradigm), keys with quotation marks are cut (C81_violated_quote), the classes of scripts list nothing (C81_violated_class, for every database)."
  },
  {
   "property": "C82",
   "status": "proved",
   "theorems": [
    "Verif.C82_table",
    "Verif.C82_consistent",
    "Verif.C82_unknown",
    "Verif.C82_none",
    "Verif.C82_unread"
   ],
   "note": "For all readable files whose records of the key have known languages and descriptors (C82_table), hence for all databases written by the program (C82_consistent); all error branches (C82_unknown, C82_none, C82_unread). pandas is represented by the sorted list of records."
  },
  {
   "property": "C83",
   "status": "partial",
   "theorems": [
    "Verif.C83_never",
    "Verif.C83_raises_partial",
    "Verif.C83_violated"
   ],
   "note": "Violated for every database: it returns only when nothing is listed, and then changes nothing (C83_never); otherwise it raises KeyError and all visible files are as before (C83_raises_partial); witness with the identity (C83_violated). The dictionary is any outcome."
  },
  {
   "property": "C84",
   "status": "partial",
   "theorems": [
    "Verif.C84_stable_partial",
    "Verif.C84_role",
    "Verif.C84_alphabet",
    "Verif.C84_key",
    "Verif.C84_filed",
    "Verif.C84_database",
    "Verif.C84_violated_old_class",
    "Verif.C84_violated_empty_group",
    "Verif.C84_violated_empty",
    "Verif.C84_violated_lone",
    "Verif.C84_violated_order",
    "Verif.C84_violated_missing",
    "Verif.C84_violated"
   ],
   "note": "Proved for clean expressions (C84_stable_partial) and, with singular morphemes, for the database: same text, class, length and path (C84_key), the hypotheses of C25-C28 hold when only keys are given (C84_database); characters of all texts (C84_alphabet). Violated, so that the parser itself is not stable (C84_violated): old class prefixes (C84_violated_old_class), empty groups (C84_violated_empty_group), polymorphemes without morphemes or with one (C84_violated_empty, C84_violated_lone), sums of one term whose order changes (C84_violated_order), missing actors (C84_violated_missing).  The role of a word that was read is the address of one of its lexemes (C84_role)."
  },
  {
   "property": "C85",
   "status": "partial",
   "theorems": [
    "Verif.C85_reported",
    "Verif.C85_key",
    "Verif.C85_errors",
    "Verif.C85_add",
    "Verif.C85_violated_two_keys",
    "Verif.C85_violated_empty",
    "Verif.C85_violated_text"
   ],
   "note": "For every correct comparison of lines and files whose lines are ended: reported files, lines, marks (C85_reported), key of files with one key (C85_key), all errors (C85_errors), the transaction that adds a descriptor (C85_add). Violated: a file of two keys (C85_violated_two_keys), a new empty file (C85_violated_empty), any changed file without quotation marks, like a README, makes the whole call raise IndexError (C85_violated_text). Binary files, renames and lines without end are not represented."
  },
  {
   "property": "C86",
   "status": "partial",
   "theorems": [
    "Verif.C86_two",
    "Verif.C86_one",
    "Verif.C86_set",
    "Verif.C86_violated_diagonal",
    "Verif.C86_two_partial",
    "Verif.C86_index"
   ],
   "note": "Exact description of what is accepted, without errors: two dimensions (C86_two), one dimension and cells (C86_one), sets and three dimensions (C86_set), positions (C86_index). The claim holds for paradigms made of some rows and some columns (C86_two_partial). Violated: a paradigm with a word in every row is accepted whatever its form, like the diagonal (C86_violated_diagonal)."
  },
  {
   "property": "C87",
   "status": "partial",
   "theorems": [
    "Verif.C87_files",
    "Verif.C87_lost",
    "Verif.C87_normalize_lost",
    "Verif.C87_violated",
    "Verif.C87_moved_partial",
    "Verif.C87_factorize_partial",
    "Verif.C87_arrives_partial",
    "Verif.C87_normalize_partial",
    "Verif.C87_stopped",
    "Verif.C87_violated_chain",
    "Verif.C87_targets",
    "Verif.C87_settled_partial",
    "Verif.C87_again_partial"
   ],
   "note": "Which files exist after a move (C87_files). Exact effect on all descriptors and settings in a consistent database when the texts are in the form the parser gives them (C87_moved_partial, C87_factorize_partial, C87_arrives_partial, the whole program with its commit: C87_normalize_partial). Violated for every expression not in normal form, which is what normalize_database.py is for: normalize=False is ignored because normalize_key has already normalised the key, so the file of the normal form is deleted with all that was moved to it and all it had before, and the old file stays (C87_lost, C87_normalize_lost, C87_violated); also violated for chains of moves (C87_violated_chain). When the program stops the visible files are as before (C87_stopped). Which expressions are moved and to which text (C87_targets); for clean expressions without decorations and words without junctions a new text is not moved again (C87_settled_partial, C87_again_partial). rewrite_word is C90."
  },
  {
   "property": "C88",
   "status": "partial",
   "theorems": [
    "Verif.C88_reads_partial",
    "Verif.C88_unreadable",
    "Verif.C88_value",
    "Verif.C88_instance_partial",
    "Verif.C88_clean",
    "Verif.C88_violated_focus",
    "Verif.C88_violated_actor",
    "Verif.C88_violated_group",
    "Verif.C88_violated_quote",
    "Verif.C88_violated_backslash",
    "Verif.C88_violated_empty",
    "Verif.C88_violated_error"
   ],
   "note": "Proved for clean expressions: the same expression, paths, and values as written (C88_reads_partial); the same instance when the values have no quotation mark and do not end with a backslash and the decorated objects occur once (C88_instance_partial); reading leaves no literal (C88_clean). Violated: for all paths with a focus, of a group, of an actor alone or with a morpheme that starts like an old class the text is refused (C88_unreadable, C88_violated_focus, C88_violated_actor, C88_violated_group); quotation marks stay escaped (C88_value, C88_violated_quote); a backslash at the end swallows the next decoration (C88_violated_backslash); no decorations (C88_violated_empty); a missing path is KeyError (C88_violated_error). Missing: expressions that are not clean, as in C84."
  },
  {
   "property": "C89",
   "status": "partial",
   "theorems": [
    "Verif.C89_given",
    "Verif.C89_listed",
    "Verif.C89_text_partial",
    "Verif.C89_irreflexive",
    "Verif.C89_places",
    "Verif.C89_order_partial",
    "Verif.C89_violated_children",
    "Verif.C89_violated_kinds",
    "Verif.C89_violated_none"
   ],
   "note": "Proved: < is a strict weak order on paths whose first node is usual and of compatible kinds, and does not decide exactly if the first nodes are the same (C89_order_partial); no path is smaller than itself (C89_irreflexive); contents before flexions, constants before groups (C89_places). The decorations do not depend on the order in which they are given (C89_given); for clean expressions no comparison made by an InstancedUSL raises and any stable sort gives the same list (C89_listed); the text read back is written the same (C89_text_partial, under the conditions of C88). Violated: the rest of the path is not compared (C89_violated_children), paths in polymorphemes and flexions (C89_violated_kinds), paths without morpheme raise TypeError (C89_violated_none)."
  },
  {
   "property": "C90",
   "status": "partial",
   "theorems": [
    "Verif.C90_rewrite_partial",
    "Verif.C90_missing",
    "Verif.C90_junction_root",
    "Verif.C90_again_partial",
    "Verif.C90_violated_groups",
    "Verif.C90_violated_again"
   ],
   "note": "Proved for words without junction, read from a list, whose role is among those of the context: the exact result (C90_rewrite_partial), the exact error if an entry of use has no lexeme (C90_missing), idempotence when something is left of each lexeme (C90_again_partial). Violated: the groups of flexions are dropped, so a paradigm becomes one word (C90_violated_groups); the result can change again (C90_violated_again); a word whose function is a junction raises AttributeError (C90_junction_root)."
  },
  {
   "property": "C91",
   "status": "partial",
   "theorems": [
    "Verif.C91_bad_item",
    "Verif.C91_accepted",
    "Verif.C91_kind_partial",
    "Verif.C91_idempotent_partial",
    "Verif.C91_nothing_invented",
    "Verif.C91_polymorpheme_partial",
    "Verif.C91_lexeme_partial",
    "Verif.C91_word_partial",
    "Verif.C91_violated_text",
    "Verif.C91_violated_hidden",
    "Verif.C91_polymorpheme_any_order_partial",
    "Verif.C91_lexeme_any_order_partial",
    "Verif.C91_word_any_order_partial"
   ],
   "note": "Proved for all arguments but texts: the result is not a script (C91_kind_partial) and is left as it is (C91_idempotent_partial); for all lists: the exception of the first wrong item (C91_bad_item, C91_accepted), no other morphemes than those of the values and E: (C91_nothing_invented); the parts of polymorphemes, lexemes and words give them again in any order (C91_polymorpheme_partial, C91_lexeme_partial, C91_word_partial), under the conditions of C51. Violated: texts with one morpheme, and the empty text, give a script (C91_violated_text); a value given for a node hides those given below it (C91_violated_hidden). Missing: instances given as arguments."
  },
  {
   "property": "C92",
   "status": "partial",
   "theorems": [
    "Verif.C92_cardinal",
    "Verif.C92_sequences_partial",
    "Verif.C92_group_partial",
    "Verif.C92_violated_five",
    "Verif.C92_violated_repeated",
    "Verif.C92_violated_tuple",
    "Verif.C92_violated_empty",
    "Verif.C92_violated_paths",
    "Verif.C92_check",
    "Verif.C92_violated_check",
    "Verif.C92_order_partial",
    "Verif.C92_any_order_partial"
   ],
   "note": "Proved for items that can be built, are not empty and have different texts: the sequences are exactly the choices (C92_sequences_partial), those of the polymorpheme with this group when at most four items can be taken (C92_group_partial), and the number of sequences for all items (C92_cardinal); independent of the order of orderly items (C92_any_order_partial); do_lt is a strict total order on orderly items (C92_order_partial); exactly what the check accepts (C92_check). Violated: empty is inverted for every variation (C92_violated_empty); iterating over the paths raises TypeError for every variation with items (C92_violated_paths); multiplicity 3 is refused, 0 and negative ones are accepted (C92_violated_check); without items the only sequence is a tuple (C92_violated_tuple); repeated items (C92_violated_repeated); five items taken together (C92_violated_five). str(v) and v == w always raise TypeError because _str stays None; this is how the model is written, not a theorem."
  },
  {
   "property": "C93",
   "status": "partial",
   "theorems": [
    "Verif.C93_check",
    "Verif.C93_accepted_partial",
    "Verif.C93_lexeme_partial",
    "Verif.C93_word_partial",
    "Verif.C93_text_partial",
    "Verif.C93_sequences",
    "Verif.C93_cardinal_partial",
    "Verif.C93_violated_empty",
    "Verif.C93_violated_read",
    "Verif.C93_violated_missing",
    "Verif.C93_violated_order",
    "Verif.C93_junctions_partial",
    "Verif.C93_cardinal_junctions_partial",
    "Verif.C93_read_partial",
    "Verif.C93_check_partial"
   ],
   "note": "Proved: the text determines the words, for words made from buildable scripts (C93_text_partial); the sequences in general (C93_sequences) and exactly, with their number, for words without junctions whose roles hold lexemes of orderly morphemes (C93_cardinal_partial), because the sequences of such lexemes and words have different texts (C93_lexeme_partial, C93_word_partial); the same for words with junctions whose text can be read back (C93_junctions_partial, C93_cardinal_junctions_partial), in particular for clean words that were read (C93_read_partial); check_phrase accepts exactly the phrases whose lexemes are all acceptable (C93_check_partial), for words that were read whatever their morphemes and junctions (C93_check); number and sequences of a phrase of words that were read and accepted, without junctions or tidy (C93_accepted_partial). Violated: no phrase is ever empty (C93_violated_empty), the text of every phrase is refused by the reader (C93_violated_read), comparing two phrases always raises NotImplementedError (C93_violated_order), a word with a role without lexeme has no sequences (C93_violated_missing). Missing: words with junctions whose role is not the address of one of their lexemes."
  },
  {
   "property": "C94",
   "status": "partial",
   "theorems": [
    "Verif.C94_accepted",
    "Verif.C94_refused",
    "Verif.C94_completed",
    "Verif.C94_values",
    "Verif.C94_again",
    "Verif.C94_call",
    "Verif.C94_stored_partial",
    "Verif.C94_violated_string",
    "Verif.C94_violated_language",
    "Verif.C94_violated_refused",
    "Verif.C94_inhibitions",
    "Verif.C94_multi",
    "Verif.C94_multi_refused",
    "Verif.C94_append",
    "Verif.C94_numbers",
    "Verif.C94_violated_numbers"
   ],
   "note": "Proved: exactly which dictionaries are accepted (C94_accepted) and why others are refused (C94_refused), the dictionary after the check (C94_completed), the strings then read (C94_values), checking again (C94_again), exactly when set_descriptors goes on and with what (C94_call), what is then stored, under the hypotheses of C32 (C94_stored_partial), inhibitions (C94_inhibitions), dictionaries of all classes (C94_multi, C94_multi_refused), numbered descriptors (C94_append, C94_numbers). Violated: a string is accepted and its letters are stored (C94_violated_string), unknown languages are accepted and ignored (C94_violated_language), refused dictionaries are changed (C94_violated_refused), two tables may get a descriptor in common (C94_violated_numbers)."
  },
  {
   "property": "C95",
   "status": "partial",
   "theorems": [
    "Verif.C95_listed_partial",
    "Verif.C95_values",
    "Verif.C95_returns_partial",
    "Verif.C95_word",
    "Verif.C95_normal",
    "Verif.C95_lexeme",
    "Verif.C95_kinds",
    "Verif.C95_morphemes",
    "Verif.C95_violated_word",
    "Verif.C95_violated_groups",
    "Verif.C95_violated_type"
   ],
   "note": "Proved: what the list holds and its order whenever get_list returns (C95_listed_partial), the values (C95_values), exactly when it returns (C95_returns_partial), the order of the kinds (C95_kinds) and of the morphemes (C95_morphemes). Violated: one readable word with a descriptor and get_list raises KeyError (C95_word, C95_violated_word), because the class of a word is a script; one readable key that is not in normal form and it raises (C95_normal); a polymorpheme with groups only raises KeyError if E: is not in the dictionary (C95_violated_groups); every lexeme is listed as a word and all lexemes have the same index (C95_lexeme, C95_violated_type). Keys with decorations are not modelled."
  },
  {
   "property": "C96",
   "status": "partial",
   "theorems": [
    "Verif.C96_shape",
    "Verif.C96_places",
    "Verif.C96_negative",
    "Verif.C96_rows",
    "Verif.C96_no_access",
    "Verif.C96_violated_3d",
    "Verif.C96_children",
    "Verif.C96_children_once",
    "Verif.C96_row",
    "Verif.C96_iterated"
   ],
   "note": "Proved: shape (C96_shape), places and sequences are inverse of each other for tables of one and two dimensions and for cells (C96_places), negative indexes and indexes outside (C96_negative), rows and columns (C96_rows), rows as arrays and iteration (C96_row, C96_iterated), children (C96_children, C96_children_once). Violated for tables of three dimensions: t[i, j, k] raises for every index and there is no index_of (C96_no_access, C96_violated_3d). An index with fewer numbers than dimensions gives an array, which is not modelled."
  },
  {
   "property": "C97",
   "status": "partial",
   "theorems": [
    "Verif.C97_open",
    "Verif.C97_outcome",
    "Verif.C97_failed",
    "Verif.C97_again",
    "Verif.C97_clone",
    "Verif.C97_violated_clone",
    "Verif.C97_analysis",
    "Verif.C97_pulled",
    "Verif.C97_catch_up",
    "Verif.C97_remote",
    "Verif.C97_fetched",
    "Verif.C97_pull_source",
    "Verif.C97_push",
    "Verif.C97_pull_push",
    "Verif.C97_published",
    "Verif.C97_violated_work",
    "Verif.C97_violated_moved",
    "Verif.C97_violated_force",
    "Verif.C97_violated_fetch"
   ],
   "note": "Proved: the state after a checkout (C97_open), exactly when it raises (C97_outcome) and what is then left (C97_failed), doing it again (C97_again), opening a folder that does not exist (C97_clone), merge_analysis and ancestors (C97_analysis), ancestors after a pull (C97_pulled), opening at an old commit then pulling (C97_catch_up), what a fetch changes (C97_fetched), the source of pull (C97_pull_source), remotes (C97_remote), push (C97_push), pull then push (C97_pull_push), published commits over any sequence of pushes that are not forced (C97_published). Violated: uncommitted work is lost even if the checkout fails (C97_violated_work), local commits may belong to no branch any more (C97_violated_moved), a missing folder cannot be opened on a branch of the server that is not its default branch (C97_violated_clone), forced pushes (C97_violated_force), a server that does not answer is not reported by pull (C97_violated_fetch). The git library is represented by its effect; credentials, callbacks and the network are not modelled."
  },
  {
   "property": "C98",
   "status": "partial",
   "theorems": [
    "Verif.C98_result",
    "Verif.C98_exclusion",
    "Verif.C98_holder",
    "Verif.C98_progress",
    "Verif.C98_terminates",
    "Verif.C98_complete",
    "Verif.C98_finishes",
    "Verif.C98_alone",
    "Verif.C98_schedules",
    "Verif.C98_memo",
    "Verif.C98_text",
    "Verif.C98_scripts",
    "Verif.C98_literals_alone",
    "Verif.C98_literals_locked",
    "Verif.C98_literals_progress",
    "Verif.C98_violated_literals",
    "Verif.C98_calls"
   ],
   "note": "Proved for any programs of the parsers that call only parsers that come later in the order USL, path, script (C98_calls), and any interleaving: results (C98_result, C98_complete, C98_schedules, C98_alone), mutual exclusion (C98_exclusion, C98_holder), no deadlock (C98_progress), termination (C98_terminates, C98_finishes), the memo (C98_memo), the text read (C98_text), threads that read scripts (C98_scripts), constructions of InstancedUSL under the lock of the parser (C98_literals_locked, C98_literals_progress, C98_literals_alone). Violated for InstancedUSL(..) called directly by two threads, which takes no lock: a decoration goes to the other instance and a literal stays (C98_violated_literals). Missing: that the programs of the USL and path parsers are exactly those of the code is not proved (only their order of calls is used); interrupts while a lock is held, the creation of the parser objects by Singleton, and the tables generated by PLY are not modelled."
  },
  {
   "property": "C99",
   "status": "partial",
   "theorems": [
    "Verif.C99_names",
    "Verif.C99_unknown",
    "Verif.C99_named",
    "Verif.C99_outcome",
    "Verif.C99_language",
    "Verif.C99_table_partial",
    "Verif.C99_junction",
    "Verif.C99_colors",
    "Verif.C99_violated_ampersand",
    "Verif.C99_violated_groups"
   ],
   "note": "Proved: when a table is made and what is raised otherwise (C99_outcome, C99_language, C99_junction), the names of the roles (C99_names, C99_named, C99_unknown), the colors (C99_colors), and the lines, cells and caption read back from the text, when the values of the dictionary have neither line breaks nor the separator of cells (C99_table_partial). Violated: values are not escaped, so a translation with the separator gives a line of five cells (C99_violated_ampersand); the morphemes of groups are not shown (C99_violated_groups). escape_latex of pylatex is any function of characters; the compilation of the text is not modelled."
  },
  {
   "property": "C100",
   "status": "partial",
   "theorems": [
    "Verif.C100_names",
    "Verif.C100_outcome",
    "Verif.C100_between",
    "Verif.C100_between_inverse",
    "Verif.C100_identity",
    "Verif.C100_rows",
    "Verif.C100_rows_once_partial",
    "Verif.C100_rows_inverse",
    "Verif.C100_matrix",
    "Verif.C100_violated_repeated"
   ],
   "note": "Proved: when the views exist (C100_outcome), the names of the relations (C100_names), the relations between two scripts (C100_between, C100_between_inverse, C100_identity), the rows of the table (C100_rows, C100_rows_inverse) and the matrix (C100_matrix). No row twice is proved when the keys are texts of scripts (C100_rows_once_partial) and false otherwise (C100_violated_repeated)."
  },
  {
   "property": "C101",
   "status": "partial",
   "theorems": [
    "Verif.C101_tables_partial",
    "Verif.C101_root_partial",
    "Verif.C101_violated",
    "Verif.C101_tables",
    "Verif.C101_root",
    "Verif.C101_without_table"
   ],
   "note": "Proved for every dictionary, whatever its keys and ignored roots, for two scripts with different texts and for a script that a table contains (C101_tables, C101_root). Violated for a script in no table, which exists only with an ignored root (C101_violated): it is related to itself exactly when the last script before it in a table is (C101_without_table). C101_tables_partial and C101_root_partial cover all pairs when the keys are texts of scripts and no root is ignored."
  },
  {
   "property": "C102",
   "status": "proved",
   "theorems": [
    "Verif.C102_father",
    "Verif.C102_layer"
   ],
   "note": "The exact objects (C102_father) and the layers (C102_layer), for every dictionary."
  },
  {
   "property": "C103",
   "status": "partial",
   "theorems": [
    "Verif.C103_order_partial",
    "Verif.C103_same_partial",
    "Verif.C103_parent_partial",
    "Verif.C103_kept_partial",
    "Verif.C103_violated"
   ],
   "note": "Proved when the keys are the texts of scripts, each lists its words once, and no two have the same words: independence of the order of the sets (C103_order_partial, C103_same_partial), the parents (C103_parent_partial), which paradigms are kept (C103_kept_partial). Violated when keys have the same words: then a script is in the dictionary for one order and not for another (C103_violated)."
  },
  {
   "property": "C104",
   "status": "partial",
   "theorems": [
    "Verif.C104_moved_partial",
    "Verif.C104_one_to_one",
    "Verif.C104_within_partial",
    "Verif.C104_distinct_partial",
    "Verif.C104_sum_refused",
    "Verif.C104_three_terms",
    "Verif.C104_refused",
    "Verif.C104_refused_inside",
    "Verif.C104_rotate_sum",
    "Verif.C104_insert_sum",
    "Verif.C104_violated"
   ],
   "note": "Proved for scripts laid out by products as the rules expect (C104_moved_partial, C104_within_partial, C104_distinct_partial), one-to-one on words (C104_one_to_one), sums of products for the two rules that handle them (C104_rotate_sum, C104_insert_sum), refusals (C104_refused). Violated for sums: ValueError unless there are three terms (C104_sum_refused), and a sum of three terms is taken for a product, whose result is not in the new root (C104_three_terms, C104_violated). translate_script, which needs a module that does not exist, is not modelled."
  },
  {
   "property": "C105",
   "status": "partial",
   "theorems": [
    "Verif.C105_actant",
    "Verif.C105_quality",
    "Verif.C105_process_partial",
    "Verif.C105_process_one",
    "Verif.C105_process_errors",
    "Verif.C105_lexeme",
    "Verif.C105_one_family",
    "Verif.C105_void",
    "Verif.C105_parts",
    "Verif.C105_violated_voices"
   ],
   "note": "Exact for actants and dependant qualities (C105_actant), independant qualities (C105_quality), processes with two or three actants (C105_process_partial) and with one (C105_process_one); no morpheme is of two families (C105_one_family), order, parts and empty morphemes (C105_parts, C105_void), errors (C105_process_errors), choice of the check (C105_lexeme). Violated: with one actant two voices are accepted (C105_violated_voices)."
  },
  {
   "property": "C106",
   "status": "partial",
   "theorems": [
    "Verif.C106_get",
    "Verif.C106_get_errors",
    "Verif.C106_valence",
    "Verif.C106_violated_prefix",
    "Verif.C106_role_in",
    "Verif.C106_violated_role_in",
    "Verif.C106_role_is_junction",
    "Verif.C106_junction_prefix_partial",
    "Verif.C106_violated_junction_prefix",
    "Verif.C106_paradigm"
   ],
   "note": "get is exact (C106_get, C106_get_errors, C106_valence), role_in for the parts that differ from the others (C106_role_in), role_is_junction and get_paradigm are exact (C106_role_is_junction, C106_paradigm), is_junction_prefix for roles of at most one script (C106_junction_prefix_partial). Violated: ignore_prefix accepts any first script (C106_violated_prefix), equal parts are found at the first one (C106_violated_role_in), a role of two scripts or more is never a junction prefix (C106_violated_junction_prefix)."
  },
  {
   "property": "C107",
   "status": "partial",
   "theorems": [
    "Verif.C107_closer",
    "Verif.C107_symmetric",
    "Verif.C107_sort",
    "Verif.C107_same_last",
    "Verif.C107_matrix",
    "Verif.C107_violated_indexes",
    "Verif.C107_violated_repeated"
   ],
   "note": "The sort and the proximity are exact for all sets and lists (C107_closer, C107_symmetric, C107_sort, C107_same_last); the matrix has the ranks (C107_matrix). Violated: the rows are not the indexes of the sorted list as documented (C107_violated_indexes), a USL twice in the list leaves a row unwritten (C107_violated_repeated). sort.py names Usl without importing it; the check of the class is left out."
  },
  {
   "property": "C108",
   "status": "partial",
   "theorems": [
    "Verif.C108_projection",
    "Verif.C108_allowed_partial",
    "Verif.C108_violated_allowed",
    "Verif.C108_data"
   ],
   "note": "Exact without allowed terms (C108_projection) and with data (C108_data); with allowed terms exact, including when KeyError is raised (C108_allowed_partial). Violated: KeyError for a table of which a cell is not met (C108_violated_allowed). The dictionary is any structure of terms, cells and tables, since the modules the file imports do not exist."
  },
  {
   "property": "C109",
   "status": "proved",
   "theorems": [
    "Verif.C109_shared",
    "Verif.C109_related",
    "Verif.C109_mark",
    "Verif.C109_sub",
    "Verif.C109_groups"
   ],
   "note": "For all words, lists and relations; the relations of terms are parameters, since the modules the file imports do not exist. display_ranking only prints."
  },
  {
   "property": "C110",
   "status": "partial",
   "theorems": [
    "Verif.C110_left",
    "Verif.C110_moved_partial",
    "Verif.C110_root",
    "Verif.C110_within_partial",
    "Verif.C110_distinct_partial",
    "Verif.C110_sum_refused",
    "Verif.C110_violated",
    "Verif.C110_again_partial",
    "Verif.C110_files_partial",
    "Verif.C110_changed",
    "Verif.C110_database_partial",
    "Verif.C110_stopped",
    "Verif.C110_refused",
    "Verif.C110_violated_chain"
   ],
   "note": "Scripts outside the root are left (C110_left); scripts within it are moved word by word when no part taken apart is a sum (C110_moved_partial, C110_within_partial, C110_distinct_partial, C110_again_partial), the roots are sent to the new roots (C110_root). Sums of other than three terms raise ValueError (C110_sum_refused); sums of three terms are taken for products (C110_violated). The program moves exactly the changed scripts (C110_changed, C110_files_partial, C110_database_partial) unless a new text has the file of an old one (C110_violated_chain); errors leave the repository (C110_stopped, C110_refused). migrate_merge, add_row_, add_row_evolution_culturel and add_empty_science_humaine are not modelled; the comment of migrate_EOETI gives another new root than the assertion that was made."
  },
  {
   "property": "C111",
   "status": "partial",
   "theorems": [
    "Verif.C111_ids",
    "Verif.C111_too_many",
    "Verif.C111_rows",
    "Verif.C111_direction",
    "Verif.C111_relations_partial",
    "Verif.C111_reversed",
    "Verif.C111_symmetric",
    "Verif.C111_once",
    "Verif.C111_refused",
    "Verif.C111_number",
    "Verif.C111_violated"
   ],
   "note": "Identifiers are exact, with the pigeonhole bound (C111_ids, C111_too_many); the rows are exact for every order (C111_rows, C111_direction), once each (C111_once), right for relations that are their own inverse (C111_symmetric) and for lists in decreasing order (C111_relations_partial). Violated for sorted lists, which the code uses: every row is reversed (C111_reversed, C111_violated). Terms are elements of any type, since the modules the file imports do not exist; the fields other than the identifier, ieml_term_model and the writing of the CSV file are not modelled."
  },
  {
   "property": "C112",
   "status": "partial",
   "theorems": [
    "Verif.C112_diff",
    "Verif.C112_found",
    "Verif.C112_first_partial",
    "Verif.C112_violated_order",
    "Verif.C112_violated_all"
   ],
   "note": "diff is exact (C112_diff); the version found is characterised exactly (C112_found) and is the first one only when the versions come last first and some version lacks the script (C112_first_partial). Violated otherwise (C112_violated_order, C112_violated_all). Versions are elements of any type; printing and loading are not modelled."
  },
  {
   "property": "C113",
   "status": "partial",
   "theorems": [
    "Verif.C113_remove_sum",
    "Verif.C113_remove_refused",
    "Verif.C113_visual_sum",
    "Verif.C113_visual_one",
    "Verif.C113_back",
    "Verif.C113_ocean_partial",
    "Verif.C113_ocean_sum_refused",
    "Verif.C113_ocean_other",
    "Verif.C113_violated"
   ],
   "note": "Removal of f. and visual forms are exact for products and sums (C113_remove_sum, C113_visual_sum, C113_visual_one, C113_remove_refused), and removal undoes insertion (C113_back). translate_ocean is exact for scripts that are not sums and for sums across the two parts (C113_ocean_partial); scripts outside give None or AttributeError (C113_ocean_other). Violated for sums within one part: ValueError (C113_ocean_sum_refused) or a script of another layer (C113_violated)."
  },
  {
   "property": "C114",
   "status": "partial",
   "theorems": [
    "Verif.C114_last",
    "Verif.C114_absent",
    "Verif.C114_descriptors_partial",
    "Verif.C114_row_partial",
    "Verif.C114_structure",
    "Verif.C114_inhibition_refused",
    "Verif.C114_unread",
    "Verif.C114_paradigms",
    "Verif.C114_violated"
   ],
   "note": "Exact for the structure (C114_structure, C114_inhibition_refused, C114_unread, C114_paradigms) and for what each file holds at the end: the rows of the key written there last and nothing else (C114_last, C114_absent). Each row is read back (C114_row_partial, C114_descriptors_partial) when no two keys of the old table share a file. Violated in general: two texts of one expression (A:+U: and O:) share a file that is opened for writing twice, the rows of the first are lost (C114_violated). Missing: the reading of the old format, whose code does not exist any more."
  },
  {
   "property": "C115",
   "status": "partial",
   "theorems": [
    "Verif.C115_retries",
    "Verif.C115_retries_refused",
    "Verif.C115_retries_error",
    "Verif.C115_retries_caught",
    "Verif.C115_tree",
    "Verif.C115_modes_partial",
    "Verif.C115_modes",
    "Verif.C115_modes_violated",
    "Verif.C115_refused",
    "Verif.C115_stuck",
    "Verif.C115_ends",
    "Verif.C115_from_type",
    "Verif.C115_from_type_violated",
    "Verif.C115_bucket",
    "Verif.C115_bucket_refused"
   ],
   "note": "Exact: the decorator (C115_retries, C115_retries_refused, C115_retries_error, C115_retries_caught), the tree (C115_tree), the list of versions (C115_bucket, C115_bucket_refused), the arguments refused (C115_refused). The loop ends when new elements keep being drawn (C115_ends). Violated: an element drawn twice in one attempt is a node and the mode of its own edge (C115_modes_violated; C115_modes_partial and C115_modes say what holds); a pool with no more elements than edges makes the loop run for ever (C115_stuck); from_type of a word calls the method of topics, since the literal has the same key twice (C115_from_type_violated, exact in C115_from_type). Missing: the methods that need ieml.lexicon, which does not exist, and random.sample on sets, refused by Python since 3.11."
  },
  {
   "property": "C116",
   "status": "partial",
   "theorems": [
    "Verif.C116_pieces",
    "Verif.C116_shape",
    "Verif.C116_again",
    "Verif.C116_empty",
    "Verif.C116_empty_violated",
    "Verif.C116_rows"
   ],
   "note": "Exact: C116_pieces, C116_shape, C116_again, C116_rows. Violated: a piece without words gives an empty translation, as in \"ami, \" (C116_empty_violated; C116_empty says exactly when)."
  },
  {
   "property": "C117",
   "status": "partial",
   "theorems": [
    "Verif.C117_accept_refused",
    "Verif.C117_tidy_partial",
    "Verif.C117_violated_again",
    "Verif.C117_match",
    "Verif.C117_refused",
    "Verif.C117_clear_partial",
    "Verif.C117_translation",
    "Verif.C117_written",
    "Verif.C117_again_partial",
    "Verif.C117_texts",
    "Verif.C117_words_partial",
    "Verif.C117_violated",
    "Verif.C117_violated_blank"
   ],
   "note": "Exact: the parts of every line (C117_match, C117_refused), what is written (C117_written), words and translations found as they are when the translation has no closing bracket before a hash (C117_clear_partial); the output is left as it is when each text written is read as itself (C117_again_partial, C117_words_partial), which holds for words whose morphemes do not start like an old class and that have no empty group (C117_tidy_partial); refusals (C117_accept_refused). Violated: a closing bracket before a hash in the translation is taken for the end of the word (C117_violated); an empty line stops the program (C117_violated_blank); a word with a group of empty morphemes is accepted and what is written is refused (C117_violated_again). Expressions with decorations are not considered."
  },
  {
   "property": "C118",
   "status": "partial",
   "theorems": [
    "Verif.C118_returns",
    "Verif.C118_added",
    "Verif.C118_values",
    "Verif.C118_all_partial",
    "Verif.C118_refused",
    "Verif.C118_morpheme",
    "Verif.C118_domain",
    "Verif.C118_violated",
    "Verif.C118_violated_space"
   ],
   "note": "Exact: when the import raises nothing (C118_returns, C118_refused), the paradigms added (C118_added), the translations set (C118_values), the replaced scripts and the domains (C118_morpheme, C118_domain). The translations of all sequences are set when all their morphemes are defined (C118_all_partial). Violated otherwise: a sequence with an undefined morpheme ends the loop and the translations of the following ones are lost (C118_violated); values keep the spaces around commas (C118_violated_space). The classes of lex and desc do not exist any more: their calls are a list; the polymorphemes are those of the present library."
  }
 ]
}