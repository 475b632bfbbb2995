# Formal model of IEMLdev/ieml — design

Lean 4.33.0 with single Mathlib modules.  The Lake project is in `lean/`:

* `Verif/Model/*.lean` – model of the Python code, function by function and branch by branch: total computable functions,
  exceptions are values of an error type (`Except Err`), objects are values of inductive types.  Every definition cites
  the file and lines it models; simplifications are noted there.
* `Verif/Spec/*.lean` – small specifications that do not mention the helpers of the model: words of primitives, finite
  maps, selections, edit histories.
* `Verif/Lemmas/*.lean` – lemmas.
* `Verif/Props/*.lean` – the property theorems, named after the property (`C01_…`), with `example`s beside them that meet
  the hypotheses in a concrete non-trivial case.

`properties.jsonl` has the full statements, `MANIFEST.json` the status of each one, the names of its theorems and, for
partial ones, what is missing.  `seeded/LOG.jsonl` records how the theorems react to wrong programs: each line is an edit of
the model that stands for a realistic bug.  `theorems_failed` has what the build reported.  When no theorem of the claim is among them,
`theorems_blocked_by_failed_lemma` has the theorems of the claim whose proof uses something that failed; it is computed from the
constants used by the current proofs, not observed.  When both are empty of theorems of the claim, the attempt does not show that the
claim is protected: the build stopped in an earlier module, and the note says so.

## Statuses

* `proved`: the statement of `properties.jsonl` is proved for all inputs of the model.
* `partial`: either the code violates the statement — then a theorem `Cxx_violated…` proves the negation on a witness, and the
  theorems `…_partial` or with an added hypothesis prove what is true — or a part of the statement is not covered.  The note says
  which.

## Conventions of the model

* `str` is a list of characters, `bytes` a list of naturals; integers of the code that are never negative are naturals.
* Recursion is structural or has a bound on the number of nested calls; theorems show that the bound is never reached.  The
  recursion limit of the interpreter is not modelled.
* A set of objects that compare by text is a list without two equal texts.  Where the order of iteration over a set matters,
  it is a parameter and the theorems hold for every order that goes once over each element.
* `sorted` is a stable sort by the modelled `<`.  Where `<` is proved to be a strict order, every sorting algorithm gives the same
  list; where it is not (one-term sums), the theorems have a hypothesis.
* Cached properties are recomputed, except where caching is the subject (C38–C40, C54, C55).  Results handed out are not mutated.
* The attributes computed by constructors are functions of the structure, or fields where the constructor can be bypassed.
* Files are a finite map from paths to texts; empty folders are not represented.  A text-mode reading translates line ends.
* The digests of file names and caches are arbitrary functions; where distinct digests matter this is a hypothesis.

## What is modelled

| Python file | Model | Not modelled |
|---|---|---|
| `dictionary/script/script.py` | `Script`, `ScriptBuild`, `Cells` | pickling (`__getnewargs_ex__`) |
| `dictionary/script/operator.py`, `tools.py` | `ScriptBuild`, `Factor`, `Rules` | arguments of `m` that are neither scripts nor `None` |
| `dictionary/script/parser/*` | `Parser`, `Threads` | table generation by PLY: the accepted language and the order of the actions are modelled |
| `dictionary/table/table.py`, `table_structure.py` | `Table`, `TableAccess`, `TableLines` | `__getitem__` with slices or without indexes |
| `dictionary/dictionary.py`, `relation/relations.py` | `Relations`, `RelationViews` | the `DataFrame` itself (its rows are a list of triples); numpy and scipy storage |
| `ieml_database/descriptors.py`, `ieml_database.py` | `Csv`, `Database`, `DictTransaction`, `Listing`, `Cache`, `ReadKey`, `ListUsls` | `_process_line` (never called), opening of folders; conversions by pandas of words like `NA` and of boolean columns |
| `ieml_database/transactions/DBTransaction.py` | `Database`, `DictTransaction`, `Listing`, `Arguments` | commit messages; arguments that `json.dumps` refuses |
| `ieml_database/git_interface.py` | `Git`, `GitFolder`, `Diff` | credentials beyond their presence, callbacks, the network, servers without commits, renames, file modes; the line merge is any function; all repositories share one list of commits |
| `usl/polymorpheme.py`, `lexeme.py`, `word.py`, `syntagmatic_function.py`, `constants.py` | `PolyMorpheme`, `SFun`, `Usl`, `WordCheck`, `FlexionCheck`, `UslOrder`, `FromPaths`, `RoleLookup` | |
| `usl/usl.py` | `UslOrder`, `Usl`, `UslParser`, `Membership`, `Cast` | `usl(arg)` on instances |
| `usl/parser/*` | `UslParser`, `Instance`, `Threads` | as for scripts |
| `usl/decoration/path.py`, `parser/*` | `Path`, `PathParser`, `PathOrder`, `FromPaths`, `Threads` | decimal digits other than ASCII ones |
| `usl/decoration/instance.py`, `commons.py` | `Decoration`, `Instance`, `Cache`, `OrderedDict`, `Partitions`, `Threads` | creation of objects by `Singleton` in several threads; progress bars; `monitor_decorator` |
| `usl/table.py` | `Partitions`, `UslTable` | |
| `usl/__init__.py` | `Index`, `ListUsls` | |
| `usl/distance/*` | `Distance` | these files import modules that do not exist; the logic is modelled with the missing parts as parameters, without `display_ranking` |
| `usl/phrase.py` | `Phrase` | the inherited methods that raise `NotImplementedError`, other than `do_lt` |
| `usl/variation.py` | `Variation` | items that are not scripts, multiplicities that are not integers |
| `scripts/database_management/{normalize_database,rewrite_words,remove_usl}.py`, `scripts/factorize_db.py` | `Maintenance`, `Rewrite` | `factorize` (the moves are any list), prompts, cloning, pushing |
| `scripts/word_to_latex.py` | `Latex` | `compile_latex` (lines 138-160); `escape_latex` of pylatex is any function of characters |
| `scripts/dictionary_tools.py` | `Rules`, `RulesSums` | `translate_script`, `translate_update`, `upload_to_s3` and others that use modules that do not exist |
| `scripts/migrate_script.py` | `Migrate` | `migrate_merge`, `add_row_`, `add_row_evolution_culturel`, `add_empty_science_humaine`; cloning; `get_dictionary().scripts` is any function of the files |
| `scripts/migrate_versions/migrate_v03Tov04.py` | `MigrateVersion` | the reading of the old files (the rows are parameters), removal of single keys by hand, git |
| `scripts/migrate_versions/migrate_v01Tov02.py` | `CleanUp` | all but `clean_up_translations`: the others download files or use modules that do not exist |
| `scripts/migrate_versions/migrate_v02Tov03.py` | `ImportSeries` | `migrate` (files and git); the classes of `lex` and `desc` do not exist: their calls are a list |
| `ieml/tools.py` | `Tools` | the methods that use `ieml.lexicon` (which does not exist), `ieml`, the download and the reading of XML; draws are parameters |
| `scripts/parse_examples.py` | `Examples` | expressions with decorations; the regular expression is modelled for lines as `readlines` gives them |
| `scripts/export.py`, `scripts/version.py` | `Export` | `ieml_term_model`, `drupal_dictionary_dump`, the CSV file; printing; terms and versions are elements of any type, since the modules imported do not exist |

Not modelled at all: the other `scripts/*` (one-off migrations), network access, logging.

## How the properties are proved

| id | model | method |
|----|-------|-------|
| C01–C04, C07 | singular sequences of scripts | denotation of a script as a set of words over E, U, A, S, B, T, defined apart; structural induction over buildable scripts |
| C05, C06, C13 | constructor of sums, promotion | union of denotations; permutation invariance from the order |
| C08, C09 | texts, lexer and stack machine of the parser | unambiguous decomposition by layers; invariant of the stack; induction on the script |
| C10, C11 | `<`, `in` | `<` is the lexicographic order of a code of naturals; inclusion of denotations |
| C14, C15, C74 | factorisation | invariant of the greedy search, cubes of words, induction on the layer; canonicity by exchange arguments; the two representations of the empty sequence are exchanged by a map that commutes with every step |
| C16, C17, C59, C60 | cells, headers, tables | index arithmetic, induction |
| C18, C19, C65, C68 | parsers on arbitrary texts | every outcome followed through lexer and parser |
| C20–C27 | dictionary, tables, relations | invariants of the folds over keys and tables |
| C28–C35 | files of descriptors and structure | refinement to finite maps, quoting lemmas for the CSV reader, induction over histories |
| C36, C37 | transactions and pull | case analysis on commit, index and working tree; induction over the body |
| C38–C40, C56 | caches, ordered dictionary | state machines with all histories |
| C41–C46 | polymorphemes | permutations, sublists and products; positional notation |
| C47, C62, C65 | texts of polymorphemes, lexemes, words | round trip through the modelled lexer and parser |
| C48–C50, C61, C63 | words as lists of roles | mutual induction over trees of roles |
| C51–C53, C64, C66–C68 | paths | induction over chains of nodes, grammar of texts |
| C54, C55 | literals on a heap of components | invariant of the global context under all outcomes |
| C57 | partitions | induction over prefix trees |
| C58 | keys | direct |
| C69–C73 | dictionary transactions | acceptance and effect as a relation on finite maps; consistency as invariant |
| C75 | order of USLs | code of lists of naturals for each USL |
| C76–C78 | checks, simplification, morphemes of words; accepted words are accepted when read again | induction over trees of roles; sorted sets |
| C79 | membership and length of USLs | products of lists of sequences; injectivity of texts |
| C80 | tables of USLs by paths | assembly of paths, sequences up to text, products |
| C81–C83 | lists of expressions, descriptors of one expression, migration of all | lines of the files, blocks of equal keys; table filled place by place; transactions of C36 |
| C84 | texts of expressions as keys of the database | everything read is made by the constructors (`Lemmas/ReadMade`); round trips C47, C62; equal texts give equal numbers of sequences |
| C85 | differences of two commits | any comparison of lines that is correct (`Spec/Diff`); induction over the paths |
| C86 | parts of a table | places of the words (C16), cosets of a step on a circle, counting |
| C87 | maintenance programs | invariants of sequences of changes; the laws of additions and removals (C25-C34) by induction on the moves |
| C88 | texts of decorated expressions | the lexer of USLs on the texts of paths and values; round trips C47, C62, C66; objects of the same expression (C55) |
| C89 | order of paths and decorations | keys of nodes compared as texts; stability of the sort, block by block; C55, C88 |
| C90 | rewriting of words | the entries kept by `simplify_word` (C77), the class of a function told by its address |
| C91 | `usl(arg)` | invariant of the bins; the bins of one level in any order (`level`), then dictionaries, groups and roles up to rearrangement |
| C92 | `Variation` | combinations as sublists, of which the texts determine the list; compared with `compute_PM_singular_sequences` by its specification |
| C93 | `Phrase` | texts split at `*`; loop invariant of the dictionary; texts of words and lexemes determine their parts (C75) |
| C94 | `Arguments` | induction over the languages and classes; entries of the dictionary after each loop; composed with C32 |
| C95 | `get_list` | loop invariant of the list against the records; order of the texts by the key of the sort; values compared with `getValues` |
| C96 | cells of tables by place, children | places of the only array, blocks of the tables, invariant of the structure |
| C97 | folders, branches, remotes, push | content of every path after each step, induction on ancestry and on sequences of pushes |
| C98 | threads | invariant: who holds which lock and what each program still gives; a chain of waiting threads rises in the order of the locks; accessibility of the programs, then of the lists of threads |
| C99 | LaTeX tables | the text is a list of lines; cutting it at line breaks and separators gives them back as no cell has one; the columns of a block by padding to the longer list |
| C100 | views of the relations | the views are sublists of one list of names; the rows are exactly the related pairs, then C22 and C24 for order, repetition and inverses |
| C101 | table relations | the entries of the matrix are the pairs with a common container of the rank; containers are indexed by text, tables of a root have distinct texts; the loop over the scripts is split in what it adds, what it keeps and the last ranks it carries to scripts without table |
| C102 | father relations | induction over the search, against an inductive "nearest script" of the spec (`Spec/Nearest.lean`) |
| C103 | tree of the tables | the loop over the paradigms keeps: parent is the least accepting table, kept when some table accepts; scripts of one root are graded by their number of words, so the tree is unique by induction on it |
| C104 | rules that move scripts | layouts of words with numbered parts; a script laid out by products is made of its parts, `m` makes the new layout; same parts, so one-to-one |
| C105 | checks of flexions | a singular sequence of a family is a script with one word, which is a word of the family; each check says whether its condition holds, and a run of checks says the conjunction |
| C106 | lookups of roles | the addresses of the items of a function are distinct, so the first match is the only one; junctions and the addresses of lexemes below them by induction on the function |
| C107 | sort by proximity | the fractions are compared by cross products, a strict weak order; the writes of a row are at distinct indexes |
| C108 | projection on tables | invariant of the loops: the cells met so far with their USLs, and the tables that contain them |
| C109 | ranking of words | the groups of a list sorted by mark have distinct marks; classes by cases |
| C110 | rules and program of `migrate_script.py` | layouts as for C104; a script whose words are in a root laid out by products is laid out in the same way; refinement of the files to finite maps as for C87 |
| C111, C112 | export of relations, versions | invariant of the loops: which names are stored for which pair, no key twice; pigeonhole for the identifiers |
| C113 | rules that accept sums | C104 for the terms, union of denotations for the sum; disjointness of the two parts of the root |
| C114 | migration to version 0.4 | reverse induction on the rows for the dictionary, invariant `Holds` over the files written, last writer of a file |
| C115 | tools that generate objects | induction on the calls; invariant of the rounds; strict weak order of dates |
| C116 | clean-up of translations | segments of a text; what collapsing and trimming leave is the words joined |
| C117 | program of the examples | longest text that ends with a bracket before a hash, by induction; the translation found has no such bracket |
| C118 | import of series | induction over the sequences, with those reached before one that is not defined |

## Trusted base

* The kernel of Lean.  No axiom is added; no `sorry`, `admit`, `native_decide`, `bv_decide`, `implemented_by` or `unsafe`.  Every property
  theorem depends at most on `propext`, `Classical.choice` and `Quot.sound`.  Witnesses are evaluated in the kernel (`decide +kernel`).
* That the definitions say what the cited lines of Python do.  They were written from the text of the code, which was never run.
* The behaviour of the libraries used by the code as described above: PLY, csv, json, re, pandas, numpy, pygit2, pickle.
