# Formal model of cee-std in Lean 4 — design

Source: `/repo` (C, cee-studio/cee-std at the pinned commit), read as text only.
Model and proofs: `/verif/lean/Verif/**`, Lean 4.33.0 core plus single Mathlib modules.

## 0. Trusted base

* The Lean 4 kernel and the axioms `propext`, `Classical.choice`, `Quot.sound`
  (per theorem: section 6; no other axiom, no `sorry`, no `native_decide`, no `bv_decide`).
* The hand translation C -> Lean.  Every definition of the model cites file and lines.  The code
  is never executed here, so faithfulness rests on reading.
* C semantics assumed: LP64 (x86-64), two's complement conversions to narrower signed types
  (implementation-defined, as gcc and clang define them), `malloc/realloc/calloc` return fresh
  disjoint memory (failure is modelled only where section 3 says so), the C locale.
* Undefined behaviour and crashes are *outcomes* of the model (`Res.ub`, `Res.segv`), never
  silently totalised: a theorem "= ok ..." therefore also states absence of UB.
  `cee_segfault()` is `Res.segv`.
* Loops that may diverge in C are modelled with fuel; a theorem states a sufficient fuel, or (for
  negative results) that no fuel suffices.

## 1. Conventions

* `Verif/<Area>/Model.lean` (or `<Name>.lean`) — definitions translated from C (citations `file:lines`).
* `Spec.lean` — independent small specification (what the English says), where it is not next to the theorems.
* `Lemmas.lean` — helper lemmas.
* `Props.lean` (or `<Name>Props.lean`) — the property theorems `Cnn_*`, each followed by an `example`
  showing that the hypotheses are met by a concrete non-trivial case.
* `_partial` suffix: the full statement is in `properties.jsonl` and the doc comment says what is missing.
* `_false` suffix: the documented/expected claim is false of the code; the theorem is the negation,
  with a concrete witness or (more often) for every input of a described class.
* `seeded/LOG.jsonl`: one line per wrong program the theorems were tested against.  An empty `failed` means that nothing
  failed; the note says why (an equivalent program, a claim that stays true, or a gap and the theorem that closes it).  Lines
  whose note begins with `corrected` first recorded failures that the edit had not caused: either the scratch copy held
  an unfinished file, or the edited definition did not compile.  The attempts are now made on the committed sources, after a
  build of the unchanged copy.

## 2. Plan per property

| id | model | how it is proved |
|----|-------|------------------|
| C01 | `Tree` (AVL with stored heights, path array as a zipper, early stop) + `Map` (tree of tuples, ordered-key list, size) | refinement to an association list, induction over operation lists |
| C02 | same | the abstraction *is* the insertion-ordered association list |
| C03 | `walk` with the `h == 1` leaf test, callback in a state monad | tree invariant gives h==1 iff leaf; traversal = fold over a permutation of the bindings |
| C04 | path length of the zipper, counted slots of `a[]` | AVL invariant, fib-like lower bound on node count |
| C05, C06 | `merge`, `clone` as iterate+add | fold lemma over the refinement; negation by witness |
| C07–C09 | `Set` = tree of pointers + size | refinement to a duplicate-free list; negation by witness + partial |
| C10–C12, C52 | `List` = buffer (capacity, cells, size) with checked accesses | refinement to `List`; no fuel suffices for the aliasing merge |
| C13 | `Stack` with 64-bit wrap-around `top` | refinement to bounded LIFO |
| C14, C15, C53 | `Hash` (entries array, mask, used, triangular probing, resize) + `Dict` | refinement to first-write-wins assoc list; triangular numbers are a permutation mod 2^k |
| C16, C17 | `Chain`: heap of (prev,next) cells, tail pointer | invariant: backward chain = list of live blocks; induction over histories |
| C18–C20 | `Gc`: object graph, mark, sweep, toggle | mark = reachability closure (acyclic), sweep invariant; negations |
| C21–C23, C49, C51 | `Rc`: heap with counts, `del_ref` recursion | measure on acyclic rank, count invariant, induction over operations |
| C24–C27, C54, C55 | `Str` buffer model with capacity/slack, checked writes | invariant by induction over appends; exact characterisations |
| C28, C29 | views as (list, count) with checked reads | induction |
| C30, C31, C46, C56 | decoder/encoder, escape/unescape on byte lists | case split on ranges, induction over the text |
| C32–C34, C57, C58 | printer machine with explicit stack, `buf = NULL` and `buf != NULL` passes | simulation with a recursive printer |
| C35–C38, C59, C60 | tokenizer and parser machine | induction over values; invariants over steps; grammar as an inductive type |
| C39, C40, C61–C65 | heap of JSON nodes over `cee_map` trees | relation between nodes and values, induction over values |
| C41, C42, C45, C66–C70 | JSON path selection and accessors | induction over paths and values |
| C43, C71 | tagged union with bytes | case analysis |
| C44 | env chain | induction |
| C48 | arrays and linked cells | induction |
| C47, C72–C78 | binding loop and statement texts; SQLite as a log of calls | induction over the table of columns |
| C50, C79–C81 | decision function over a world of files; buffers of 128 bytes | case analysis, induction |
| C82–C89 | operations over an arbitrary `Engine` (prepare, step, errors, row ids) | induction over the rows an engine yields |
| C90 | join loop with the mutated data | induction over the array |
| C92 | grammar on bytes (lexemes, white space, documents), apart from the tokenizer | inversion of every tokenizer function; the parser by C37 |
| C93 | `Rc` heap with environments and closures | induction over the chain; negation for every sharing |
| C94, C95 | heap-level interface of value.c as a small call language | simulation with association lists, induction over programs |
| C96 | `mergeAll` over files as byte lists; nodes made by the parser as `place` | C40 repeated, then C61 on the value read back from the heap |
| C97 | file system as a tree of positions; paths as byte texts | induction over the names of a path; `dirname` takes the last one |
| C98 | connection = content on disk + content within a transaction; script = list of partial functions | case analysis over the faults, induction over the script |
| C99–C101 | statement texts cut to their buffers | exact characterisation; reading the quoted text back |
| C102 | `Rc` heap with maps; the list of keys and the tuples are part of the block of the map | one specification step per call (`Good` kept), induction over programs; negation for each misuse |
| C103 | `Rc` heap with a kind for each block: set, dictionary, stack; the members of a set in the order of insertion, not of the tree | one specification step per call (`GoodS` kept), induction over programs; union and clone by induction over the members; negation for each misuse |
| C104 | a program is a function on systems (file system + contents) that may end in a crash; the C50 model is the specification of the database | an invariant of the system while the database is worked on, one lemma per step; C97 for the directories; the rows are computed and then compared with what C50 says was done |
| C105 | the heap of C102 with tags and static blocks; kinds of blocks in the specification | simulation with a heap in which static blocks are counted; a typing invariant; one lemma per call, induction over programs; `cee_json_object_append` and `_kv` as short programs (`Verif/Rc/AppendRc`); negation for each leak |
| C106 | the parser with the blocks it allocates, links and frees; an allocator | simulation of each turn by the parser on values (C37), with ownership of the unlinked blocks; a potential that counts leaked values; links to texts through C92; negation with a repeated key and with an error |
| C107 | memory with counts, marks and roots; calls of C21 mixed with collections | invariant over all programs, against a specification that keeps the counts lost; the mark phase is the set of blocks reached, the operations of C21 are carried over memory with dead blocks in it; negations with four short programs |
| C108 | saving and loading with any answers of `write`, `fstat` and `read`; the parser as in C37, C92 | the tokenizer and the parser are carried over memory that goes on; texts of arrays and objects are prefix-free (unique reading of C37 and C92); negations at cuts after digits and for short reads |
| C109 | the memory of C105; merging bounded by a depth and a number of entries | held references as references of the program; one lemma per step of `cee_map_add_e`; a preorder of memories that only grow; induction over the depth; negations by runs |
| C110 | the model of C87 and C78; two engines that agree on a list of texts | noninterference: a relation that forgets values, carried through the population, the composition and the table; the operations depend on the engine only at these texts; an inductive relation for the array; negations by computation |
| C111 | the map of C102 at a fixed address that the program never gets, with `cee_map_find` | an invariant (the map is there, nothing refers to it) over all histories; what the map has is the fold of the history; negations for every memory |
| C112 | musl-tsearch.c on a memory of nodes with pointers, store by store; any allocator | simulation of the value model through trees labelled with addresses (a zipper held in memory, frame lemmas, naturality in the keys), then the set specification; negations by running the code |
| C113 | lists, dictionaries, sets and maps with arrays, table headers, entries and tree nodes as private blocks beside the chain; one allocator for all | ownership map from private blocks to containers, frame lemmas; table, list and tree steps by simulation of the value models and of the tree in memory (C112); what belongs to another container in the chain (lists of a dictionary, list and tuples of a map) by one lemma on dependents; negations for the failing `cee_dict_mk` and for deleting a set with members by running the code after any history |
| C114 | the heap of C40; `into`, `inTurn`, `grouped` are sequences of calls written for the claim | C40 repeated; induction over the values for associativity, repetition and exchange, by lookup of keys; read back with `readVal` |
| C115 | `Verif/Cost`: the operations of maps and sets as programs that can only *ask* for comparisons (`Asks`); `calls` lists the arguments of every call | the programs run to the models of C05/C06 in every state; length of a search ≤ height; least number of nodes of an AVL tree of a height is a Fibonacci number minus one; exact count of the search in the list of keys |
| C116 | the models of C10, C24, C15 (`Verif/Cost/Growth`); `moved`, `changes`, `peak` add up recorded sizes | potential `2·size − capacity` for lists; sizes that double when they change sum to less than the last; induction over the history |
| C117 | blocks as regions of bytes with unwritten bytes (`Verif/Block/Model`): block.c, `cee_block_empty`, the block of `cee_json_blob_mk`, `new_cee_sqlite3_db_op` | invariant (length, words of the header, data) kept by every write; false for sizes that overflow, for the empty block and for NULL blobs |
| C118 | `parsex`, the line of the tokenizer (`Verif/Json/ErrorLine`), grammar of `Syn` and `Spells` | every reachable state of the parser can be closed to a document, so the token that leads to the error state is the first that cannot follow; lines counted along `Yields`; false for CR LF |
| C119 | `Verif/Own/Walk`: `walk` reading the nodes of the heap again after every action, `mapKeys`, `mapValues`, `mapOrderedKeys`, `mapMerge`, `mapClone`, `setValues`, `setClone`, `setUnion` on the heap of `Verif/Own/Model` | induction over the tree with an invariant indexed by the keys met so far (`walk_ok`); every call keeps the nodes owned by other containers (`Kept`), and the blocks of a container are its own by the invariant of C113 |
| C120 | `Verif/Own/Iterate`: `mapIterate`, `setIterate` with a callback on its own data and the state; `Calls` are sequences of calls of the language of C113 not about one container | frame rule by running the same call on an abstract state in which the container and what it owns are opaque objects (`SObj.frozen`); then induction over the tree (`walk_eq`); for removals, the two shapes of a tree of two nodes |
| C121 | the maps and sets of C01 and C07, with two comparison functions | if all elements of a tree are found, each search goes the way of the tree, so the tree is sorted by the new comparison (`found_sorted`, induction over the tree); two sorted orders of one list agree |
| C122 | Verif/Rc/GrowRc: the two methods of `S(resize)` on the memory of C21 | a copy is a new block with as many references of the program as the old block had (`growM_spec`), a move takes the program's references along (`growR_spec`); then induction as in C21. Negations: references of the program only fall by `cee_del_ref`/`cee_del`; liveness only shrinks during deletion |
| C123 | the operations of C87 and C83 with a database that keeps the rows of one table (`Keeps`, assumed: no constraints, no conversion of values) | C87_insert gives the bound values, `Keeps` the new row, C83 all rows, C82 their objects; `stored_back`: the column of a stored value is the value; induction over the objects |
| C124 | `select1OrInsert` (cee-sqlite3.c:558-598) over any engine | C84 for the selection, `runInsert_spec` of C85 for the insertion |
| C125 | `parsex`, `asprint` | grammar of C92 for the printed text (`by_render`), tokens of read texts are kept (`spells_kept`), length of the shortest lexeme of each token (`compact_toksLen`) |
| C126 | `asprint` | `by_render` with the lexemes of RFC 8259 |
| C127 | `updatePolicy`, `changePolicy`, `detach` | one element removed, one inserted, order of the elements of a block irrelevant (`W.perm`), induction over programs as in C21 |
| C128 | `upsertEach` over `updateOrInsertOp`, databases `Keyed` | the rows are `tableOf` of the objects so far (`table_snoc`), one step from C87 and `upsert_absent`, values read back as in C123 |
| C129 | `runKOps` over `insertOp`, `updateOp`, `updateIfExistsOp`, `updateOrInsertOp` | the rows hold the rows of the specification `KOp.rows` (`HoldsRows`), one lemma per operation |
| C130 | `parsex`, `insertEach`, `select`, `asprint`, `parsex` | C92 for the text, C123 for the table, C125 and `read_back` for the printed text |
| C131 | `memPrint`, `memAsprint`: the printer on the memory of `Rc/JsonRc` (Rc/PrintRc) | simulation of the printer of values; `Over`: memory is the first one with the blocks of the stack and a reference to each key |
| C132 | `memParse`, `memAsprint`, `mdel`, `jsonDel` one after the other; the printer has the allocator and the contents of the parser (`PEnv.printer`) | what the parser's invariant says of memory gives `shows` of the printer (each new block is counted at most twice); the invariant holds of every memory that is the same on the live blocks |
| C133 | `memSave`, `memLoad` on the memory of C106 and C131 (Rc/SaveRc); buffers from `malloc` are not part of it | C131 twice; the invariant of the parser is kept by printing, so that the second parsing starts from a good memory |
| C134 | `serve`: `memParse`, `memAsprint`, `mdel`, `jsonDel` for each text of a list (Rc/ServeRc); the loop itself is not in /repo, it is an assumed caller | induction over the list: one request gives back a good memory with as many blocks, so that the same recursion depth is enough; for the negative part the blocks added by each text in which no value starts are counted |
| C135 | `serve` as for C134; `Servable`, `Answers`, `Wasteful`, `After` state the claim (Rc/ServeAll) | `doc_del_any`: deleting a root to which nothing refers frees no old block, whatever is left of keys given twice; sizes of values in terms of tokens (Json/Sizes); induction over the list |
| C136 | `loadAll`, `printAll`, `delAll`: loops of an assumed caller over C106, C131 and `cee_del`; `Held`, `Apart` state the claim (Rc/HoldAll) | new blocks never refer to old dynamic ones (`Grown`), also after `EINVAL` (`reject_core`), and this composes (`grown_trans`); a root without references is freed with no other root (`root_del`); what remains has no dangling references, so that values whose roots remain can be read (`reads_fewer`) |
| C137 | `session`: an assumed caller that carries out any list of `Cmd` with `loadAll`, `printOne`, `delAll`; `Right`, `Shown`, `remaining` state the claim (Rc/Session) | an invariant (`Sess`) that reading (`sess_read`), printing (`sess_over`) and deleting (`sess_del`) keep: documents can still be printed after others are deleted since counts of keys only decrease and stay positive (`shows_fewer`); every new block to which nothing refers is the root of a document that is held |
| C138 | the comparison functions on values, floats as sign, exponent and mantissa scaled to integers (`scaled`, Boxed/Cmp) | sign of a difference (`sign_cmp`); magnitudes with a greater exponent are greater (`mag_lt`), so that a value determines the bits except for zero (`scaled_inj`) |
| C139 | `strEnd`: `strlen` on the checked bytes of the block, an optional index (Str/End) | induction over the bytes (`strlen_iff`); the invariant of C24 (`exec_inv`, `execAll_inv`) |
| C91 | `va_list` as list of arguments or indeterminate | induction over the format |

## 3. What is modelled, and what is not

| source | module | simplifications and omissions |
|--------|--------|-------------------------------|
| musl-tsearch.c | Tree, TreeMem | Tree: nodes without addresses; path array as zipper with counted slots. TreeMem: nodes in memory with pointers, `malloc` may fail, `rootp` not NULL; `freekey` and `action` do not change the tree |
| map.c | Map, Rc/MapRc, Own, Cost | comparator is a parameter with stated laws (for the counts: an equivalence); the counts are a model of their own, in which the tree is the list of its tuples |
| set.c | Set, Rc/SetRc, Own, Cost | as Map; counts of members in Rc/SetRc |
| list.c | List, Own | buffer with checked cells; `int` counters modelled |
| stack.c | Stack, Rc/SetRc | `cee_stack_capacity` left out |
| musl-hsearch.c, dict.c | Hash, Rc/SetRc, Own | allocation failures are an oracle; the float computation of the initial size is an arbitrary number |
| cee-resize.h, state.c | Chain, Gc, Rc/GcRc, Rc/Context | addresses are numbers, the allocator is an oracle; private memory of containers that is not a chained block is in Own (lists and dictionaries) and Tree/Mem (tree nodes), and left out of the other models; Rc/GcRc leaves the chain out and sweeps all blocks |
| cee-common.c, tuple.c, triple.c, quadruple.c, n_tuple.c, tagged.c | Rc, Own (tuple.c) | 16-bit counter; `cee_tuple_update_del_policy` in Rc/PolicyRc |
| str.c | Str | sizes unbounded; formatted text given, except in `Str/Format` (formats `%s`, `%d`, `%%`); arguments that alias the destination left out; `cee_str_ncat`, which does nothing and returns NULL, left out |
| strview.c | Strview | `isspace`/`isdigit` of the C locale |
| cee-json/tokenizer.c, parser.c | Json/Token, Utf8, Unescape, Parse, Rc/ParseRc | parser as a zipper instead of nodes on the heap, except in Rc/ParseRc, where blocks have addresses from an allocator, and the block of a number is known by a name (`numName`) that says which number it is; the tuples of the stack are blocks without pointers there; objects are association lists with distinct keys; `strtod` is a parameter and reads exactly the lexeme; the line of an error only in Json/ErrorLine |
| cee-json/snprint.c | Json/Print, Escape, Rc/PrintRc | `%lg` is a parameter (nonempty, without NUL); offsets unbounded, except that a negative `tabs` moves them back; strings and keys below 2^32.  In memory (Rc/PrintRc): the elements of the stack are a list beside its block; contents of strings, numbers and blobs are functions of addresses; a `strn` is not stored in a block of its own |
| cee-json/value.c | Json/Heap, Build, Select, Array, Value, Files, Rc/JsonRc, Rc/MergeRc | heap without reference counts, except in Rc/JsonRc and Rc/MergeRc, where values have no content and the text of a key is fixed by its address; file loading and saving with system calls that succeed and transfer everything, except in Json/Files; setters modelled through `insertKey`; in Rc/MergeRc the members of the source are read before the first is added |
| cee-json/cee_json_merge.c | Json/MergeAll | the parser's nodes are placed on the heap after parsing; a name is read once; leaks of early returns left out |
| boxed.c | Boxed | union of little-endian bytes; floats as bit patterns; text of floats a parameter; comparison of floats by IEEE 754 on the bits (Boxed/Cmp) |
| env.c, closure.c | Env, Rc/Env | finite chain; the function of a closure left out |
| musl-lsearch.c, musl-insque.c | Search | cells and links with checked accesses |
| sqlite3/cee-sqlite3.c | Sqlite/Bind, Json, Ops, InsertAll, Open | SQLite is a log of calls (Bind) or an arbitrary `Engine` (Ops); a parameter name has one index; sizes below 2^31; `cee_str_catf` is append; `cee_str_mk` is formatting although C91 shows it undefined; reading `NULL->_` is UB; `%s` of NULL is `(null)`; blob bytes are not kept in JSON values; of the errors of a population only the column names; a join of something that is no object is always a crash |
| sqlite3/cee_dbm.c | Sqlite/Dbm, Mkdir, Open, Start | a world of files with contents and versions; the log database and the directories only in Start, without the times of the rows; a missing file is loaded as NULL; file system without links, the descriptor of `mkdir_p_ext` left out |
| sqlite3/join.c | Sqlite/Join | as Ops |

Not modelled at all: `singleton.c` (beyond its tracing in Gc and the reset of its counts in Rc/JsonRc),
`get_in_degree`, `cee_list_to_json` and `cee_map_to_json` (one-line wrappers),
`S(cmp)` of boxed.c, which always ends the program and is never called, and everything behind `#if 0`
(`cee_stack_capacity`, `cee_singleton_mk`, `path_info_load`, `db_info_load`).
`/repo/release` is an amalgamation of the same text.

Cannot be expressed here: real addresses and pointer-comparison order, allocator failure (except where
stated), `double` printing/parsing (opaque), SQLite itself, `errno`, threads.

Values near the limits (histories of 2^31 operations, strings of 2^31 bytes, 65536 references) appear as
explicit hypotheses of the theorems.

## 4. Status

43 properties are proved as stated, 96 partially (nearly always because the
full statement is false of the code; the `_false` theorems say so).  Per property: `MANIFEST.json`.

## 5. Disagreements between the expected behaviour and the code

Each line is backed by a theorem (names in `MANIFEST.json`).

| id | property | source | what the code does |
|----|----------|--------|--------------------|
| C06 | Clone preserves the insertion order | map.c: cee_map_clone, cee_map_insertion_ordered_keys; cee-json/snprint.c: push | The claim is false of the code (clone re-adds in tree preorder); negation proved with a witness, and the exact order of the clone characterised. |
| C08 | Adding a member twice does not change a set | set.c: cee_set_add | False of the code for the same pointer; holds for an equal element with a different pointer. |
| C100 | Attaching and detaching name the right database | sqlite3/cee-sqlite3.c: cee_sqlite3_attach_db; sqlite3/cee-sqlite3.c: cee_sqlite3_detach_db | False as stated: a quote in the file name ends the path and the rest is run as SQL; a database in memory is undefined behaviour. Proved: for names without quotes and a large enough buffer, reading the statement back gives the path and the alias. |
| C101 | Variables of a database | sqlite3/cee-sqlite3.c: cee_sqlite3_get_pragma_variable; sqlite3/cee_dbm.c: get_user_version | False as stated: every failure reads as 0, so that a database that cannot be opened has version 0. Proved: the value for names of at most 247 bytes. |
| C102 | Maps count their keys and values | map.c: cee_map_mk_e; map.c: cee_map_add_e | False as stated: giving a key its own value again, merging into the old value, merging to a third object, owned keys, keys that are no blocks, clones of maps that own their values, and removed keys each break the counts. Proved for every program that avoids these: no undefined behaviour, exact counts, exact set of live blocks. |
| C103 | Sets, dictionaries and stacks count what they hold | set.c: cee_set_add; set.c: cee_set_clear | False as stated: adding a pointer twice, removing a member, deleting a set with members, clearing a set its members keep, uniting sets that share a member or do not count, cloning owning sets, NOOP dictionaries and foreign dictionary keys each break the counts. Proved for every program that avoids these: no undefined behaviour, exact counts, exact set of live blocks; union and clone from every such memory. |
| C104 | Start-up makes the directories and records each step | sqlite3/cee_dbm.c: cee_dbm_db_init; sqlite3/cee_dbm.c: open_dbm_log | False as stated: at the first start-up the log is opened before its directory is made, so nothing is recorded; rows about scripts are cut to 63 bytes; making the log database anew loses the log; databases in the root directory end the program; a creation script that fails halfway is not run again. Proved otherwise, for every file system and table of scripts: the outcome is that of C50, the directories are made, nothing else is changed, and the rows of the log are exactly those described; if a script fails, the statements before the failing one are on disk and the last row names the script; if the directories cannot be made, the last row is that the database is opened. |
| C105 | JSON values count their parts | cee-json/value.c: cee_json_object_set; cee-json/value.c: cee_json_object_rename | False as stated: a value that is overwritten or removed, and its key, stay in memory without references; renaming a missing key leaves the string of the new name; setting the value that a key has counts it twice; an array appended to itself grows without end. Proved for all programs in which no key is given the (non-static) value it has, arrays are concatenated to other arrays, and no value that is not static is stored beyond 65535 references. appending to a key that has an object or a number (cee_json_object_append) crashes in cee_json_listify. C105_calls: the same for programs that also call cee_json_object_append (on keys with nothing, an array or a string) and cee_json_object_kv. Parsing and merging in counted memory are C106 and C109. |
| C106 | Parsing a document in memory, and deleting it | cee-json/parser.c: cee_json_parsex; cee-json/tokenizer.c: cee_json_next_token | False as stated: with a key twice in an object the first value stays in memory for good, and on an error the tuples of the stack and what was built stay in memory (C106_safe: after each EINVAL at least one block to which nothing refers, and no more than a bound that is linear in the number of tokens). Proved: the value (with the numbers, and the keys of objects in the order of the text), the counts and the old memory for all input; nothing stays behind after deletion if no object has a key twice. |
| C107 | Counting references and collecting garbage | state.c: cee_state_gc; state.c: S(sweep) | Proved for programs that follow GOk: no freed block is used, exactly the blocks of the specification are in memory, and counts are references plus those lost in collections. A collection keeps exactly what is reached, and every second time also garbage made since the last one; no count changes. False in four ways, with witnesses: counts held by collected blocks stay (leak), garbage kept by the second collection holds freed blocks (undefined behaviour when dropped), a block whose owner was collected stays retained (leak), a root that was deleted is read. Cycles among reached blocks are excluded (C20). |
| C108 | Documents that are cut off | cee-json/value.c: cee_json_save_fileno; cee-json/value.c: cee_json_load_from_fileno | False as stated: a file that cannot be opened ends the program and the size after a failing fstat is indeterminate, a file that ends in a number after the cut is read past its block, a short or failing read is not noticed and bytes that were never stored are read, and a number at top level that is cut is another number. Proved: every cut of an array or object that a NUL follows is refused, every continuation too, the result of a save is exact, and what is loaded from the part written is the value saved or nothing. |
| C109 | Merging documents in counted memory | cee-json/value.c:211-260; map.c:117-148 | Proved: defined, nothing freed, no count too small, exact contents and counts where no nested values are put together. False in the code: a nested value of the source that is merged keeps a count too many, a replaced value stays without references, an object merged into itself counts its values again, an array merged into itself never ends. The source is read before the first entry is added. |
| C110 | Values never become SQL | sqlite3/cee-sqlite3.c:618-725; sqlite3/cee-sqlite3.c:776-866 | The independence from values is proved for the four operations with an object (C110_ops; keys that are no columns do not count either), for arrays of objects (C110_arrays) and for joins (C110_join). C110_partial: what an array does with any engine. False: keys of the objects of an array are part of the statement as they are (C110_keys_false), 0 is returned even if nothing was stored (C110_refused_false), for an empty array an uninitialised value is returned, and a value of another type ends the program in the middle. The parameters SQLite finds in the text are a hypothesis of C110_partial. |
| C111 | Contexts of a state | state.c:120-138; state.c:101 | Proved for keys and values that are live blocks, over all histories that follow the rules of C102. False for string literals and other keys that are no blocks (the contexts count their keys: undefined behaviour in every memory), for NULL, and after the first collection, which frees the list of the keys of the contexts. |
| C112 | The search tree in memory | musl-tsearch.c:20-209; map.c:57-71 | Proved on a memory of nodes, store by store, for every allocator: no undefined behaviour, the answers of a set, one node per member, nothing left after musl_tdestroy; the memory always holds the very tree of the value model behind C01-C09, also for inconsistent comparators. False of the code, with witnesses: a node pointer goes stale when another key is deleted (its key moves to another block), and NULL is returned for a present root without a left child. Proved instead: searching and finding never move a key, and the pointer returned by musl_tdelete is NULL or live. |
| C113 | Private memory of lists, dictionaries, sets and maps | list.c:26-119; dict.c:28-108 | Calls, ownership of private blocks and deletion of the state are proved for every history in which no call fails for lack of memory. Two parts of the statement are false. A failing cee_dict_mk frees its block without taking it out of the chain (dict.c:77-80), after which deleting the state is undefined (C113_null_false). Deleting a set that has members is undefined, because the function that deletes the members reads the policy through NULL (set.c:26, 53-57; C113_setDel_false). Lists and tuples inside a dictionary or a map are not used directly by the caller; list and block allocations that the code does not test are taken to succeed; list capacities below 2^60, fewer than 2^31 elements; cee_map_keys, values, merge, clone, union and the walks over trees are not among the calls here (C03, C05, C09); sizes of sets and maps are in C01, C07 and C08; reference counts of elements are in the Rc models, here deletion reports the elements handed to cee_del_e. |
| C114 | Laws of merging | cee-json/value.c: cee_json_merge; cee-json/value.c: merge_json_value | Stated of what the printer reads from memory after the calls, up to the order of keys. Order of documents that are apart and neutrality are proved. Grouping and repetition are false in general; both are characterised exactly: grouping does not matter if and only if the documents do not clash (C114_partial), repetition does not matter if and only if no array with elements is reached through keys (C114_again). |
| C115 | Number of comparisons | map.c: cee_map_add_e; map.c: cee_map_find | Programs that may only ask for comparisons; C115_same: with the comparison function they give the results of the models of C05 and C06, in every state. Holds for find and add of maps and sets, removal from sets (two searches), merging and any history of finds and adds. False for removal from a map (C115_remove_false): the list of keys in order of insertion is searched from the front, so removing the newest of n entries makes more than n calls; C115_remove gives the exact number, C115_history bounds a whole history with removals and renames. |
| C116 | Cost of growing | list.c: cee_list_append; list.c: cee_list_insert | About the models of C10, C24 and C15; the sizes after every operation are recorded. The copying is linear and the memory in proportion to the largest content reached (lists: twice, strings: twice with 73 bytes for header and terminator, tables: four slots for an entry). False in proportion to the present content: a list or string that was emptied keeps its memory (C116_list_false, C116_str_false), and every addition to a dictionary under a key it already has lengthens its lists of keys and values (C116_dict_false). That replaced blocks of a string stay allocated under the malloc method is C16; here only their sizes are added up. |
| C117 | Plain blocks | block.c: cee_block_mk; block.c: cee_block_mk_nonzero | Proved at the level of bytes for all sizes below 2^64 - 80. False: for larger sizes the sum with the header overflows and cee_block_mk writes outside the memory (C117_huge_false); cee_block_empty uses the header of str.c, which is 8 bytes shorter, so cee_block_size reads in front of it (C117_empty_false); cee_json_blob_mk copies from NULL for an empty blob of a database (C117_blob_false). malloc is taken to succeed. |
| C118 | Line of an error | cee-json/tokenizer.c: cee_json_next_token; cee-json/parser.c: cee_json_parsex | Proved with LF and CR each counted as the end of a line, for all texts. False with lines as usually counted: CR LF counts twice, so that a text of k such lines reports 2k (C118_crlf_false). |
| C12 | List merge terminates for every pair of lists | list.c: cee_list_merge | claim is false of the code for dest == src: negation proved; for distinct lists C11_merge shows termination |
| C122 | Strings that grow in counted memory | cee-resize.h: S(resize); str.c: cee_str_add, cee_str_catf, cee_str_replace | Holds for strings that are in no container when they grow (for the default method also: without references of the program). False otherwise: the default method copies count and retained mark to a block nobody refers to, which is then never freed by counting (C122_count_false) or by no reference operation at all (C122_retained_false); with realloc the container keeps the address of the freed block and its deletion goes wrong (C122_realloc_false). |
| C123 | What is stored can be read again | sqlite3/cee-sqlite3.c: cee_sqlite3_insert_op, cee_sqlite3_select, cee_sqlite3_bind_run_sql, get_a_row | Composition of C75, C77, C87, C82 and C83 with a database that keeps rows (Keeps: a table without constraints and conversions; memDb is one). Holds for values that fit their columns, with unused data for every insertion. False for objects without any column of the table (the statement has empty lists, C123_empty_false) and if the data of one operation are used twice (a value of the first object is stored again, C123_reuse_false); values that do not fit are the subject of C75 and C82. |
| C124 | Selection of one row, or insertion | sqlite3/cee-sqlite3.c: cee_sqlite3_select1_or_insert | Holds for rows that are objects without a column named error. A row with such a column is taken for an error and its other columns are lost (C124_error_column_false); a single column without label is lost if the status is an object (C124_bare_false). The comment in cee-sqlite3.h:221-223 says that an array is returned; the code returns the row itself. |
| C125 | Reformatting | cee-json/parser.c: cee_json_parsex; cee-json/snprint.c: cee_json_snprint, cee_json_asprint | Holds for values whose doubles are printed as numbers that are read as the same double, up to the height the printer can handle; without doubles the text does not get longer. It is false for doubles: 1e999 is read, printed as inf and refused; 1.0 comes back as an integer; %lg keeps six digits. It is false for values 500 and more high by C34. |
| C126 | What is printed is JSON | cee-json/snprint.c: cee_json_snprint, cee_json_asprint, str_append | Holds for values without undefined, with strings and keys of Unicode text without NUL and doubles that %lg prints as numbers, including blobs and unsigned integers. The other three cases are printed as something else than JSON. |
| C127 | Changing the policy of an element of a tuple | tuple.c: cee_tuple_update_del_policy; cee-common.c: cee_incr_indegree, cee_decr_indegree, cee_del_e | The function changes the policy only, so the counts are exact afterwards exactly if the policy is the old one (C127_exact_iff). All six real changes go wrong: three free an element that is still held, three leave it in memory for ever. Proved for every program that takes the element back under the old policy first and counts it under the new one afterwards, and for the end of cee_map_remove, which frees exactly the tuple. |
| C128 | Storing objects by a key | sqlite3/cee-sqlite3.c: cee_sqlite3_update_or_insert_op, cee_sqlite3_update_or_insert, cee_sqlite3_generic_opcode, cee_sqlite3_select | Proved for objects with a key that is not null, whose values fit the columns, each operation with unused data, starting from an empty table: refinement of a keyed table by induction over the operations. Columns marked no_update keep their first value and null does not replace a value in a not_null column. False for objects without key: storing the same object twice gives two rows, since the statement that looks for the row compares with null (C128_null_false). |
| C129 | A table changed by operations | sqlite3/cee-sqlite3.c: cee_sqlite3_insert_op, cee_sqlite3_update_op, cee_sqlite3_update_if_exists_op, cee_sqlite3_update_or_insert_op, cee_sqlite3_generic_opcode, cee_sqlite3_select | Refinement of a list of rows by induction over the operations, from an empty table, for objects with a key that is not null whose values fit the columns, each operation with unused data; the result is read with cee_sqlite3_select. Columns marked no_update are left alone by updates, null does not replace a value in a not_null column. Not for objects without key: C128_null_false shows that two updates or insertions of such an object give two rows. Used data: C123_reuse_false. |
| C130 | A JSON text through the database | cee-json/parser.c: cee_json_parsex; cee-json/snprint.c: cee_json_asprint | C130_same: the same value, in a text that is not longer, for objects with exactly the columns of the table. C130_partial: for objects with other keys, or without some of the columns, the array of the rows (null or the zero of the type for a column without value). Each insertion has unused data; values fit the columns; no columns for blobs. The full statement is false for objects without a column of the table, for null in a not_null column (C130_partial gives the zero of the type) and for data used twice (C123_reuse_false). |
| C131 | Printing leaves memory as it was | cee-json/snprint.c: push, cee_json_snprint, cee_json_asprint; map.c: cee_map_insertion_ordered_keys, cee_map_find | C131_partial: for height below 500 and keys that are counted between 1 and 65035 times and not retained, the outcome is that of the printer of values for every buffer (also the undefined ones), and memory is as before except for one block for each blob. C131_asprint: with C33, the compact text and exactly its block, plus two for each blob. The full statement is false: each blob leaves a string (C131_blob_false), 500 or more nested arrays leave 1000 blocks (C131_deep_false), and the count of a retained key drops at each printing, so that a key is freed while its object has it (C131_retained_false). |
| C132 | A document is read, printed and deleted | cee-json/parser.c: cee_json_parsex; cee-json/snprint.c: cee_json_snprint, cee_json_asprint | For documents without a key twice in an object and of height below 500 (pretty format: up to 128). The memory that the parser leaves is shown to be one that C131 prints: each key is counted at most twice and not retained, numbers and the order of keys are those of the document. C132_text_partial: from a text, and the printed text is read again, if each double is printed as a number that is read as this double. The full statement is false: C106_twice_false, C131_deep_false, C125_inf_false. |
| C133 | A document is saved to a file and loaded from it, in memory | cee-json/value.c: cee_json_save_fileno, cee_json_load_from_fileno; cee-json/snprint.c: cee_json_snprint | C133_save: for every value in memory of height below 500 the outcome is that of saving on values (C61, C108) for all answers of `write`, and only two blocks for each blob stay. C133_partial: arrays and objects without doubles and without a key twice, below height 500 (pretty: up to 128). The full statement is false: C60_load_false (a number alone in a file), C125_integer_false (doubles), C131_deep_false, C131_blob_false, C106_twice_false. |
| C134 | Any number of documents can be read, printed and deleted | cee-json/parser.c: cee_json_parsex; cee-json/snprint.c: cee_json_asprint | C134_partial: any list of texts of documents within the limits (text below 2^31 bytes, depth up to 511, height below 500, no key twice). C134_all_partial: such texts and texts without NUL that the parser rejects, in any order; each rejected text leaves at least one block to which nothing refers and at most 3 + 4 * N. C134_mixed_partial: exactly one for each text in which no value starts (the empty text, `]`, an unknown word, ...). The calling loop is not in /repo; it is a caller assumed by the model. The full statement is false: C134_error_false shows that each text in which no value starts leaves a block, because the parser does not delete its first tuple when it answers EINVAL (parser.c:247-260); C106_twice_false for a key twice, C131_deep_false for higher values. |
| C138 | Boxed values are totally ordered | boxed.c: S(cmp_double), S(cmp_float); boxed.c: S(cmp_u64), S(cmp_u32), S(cmp_u16), S(cmp_u8) | False with NaN: whatever is compared with it, in either order, the first is less, and NaN is less than itself. Proved for all other values. Not part of the model: where the functions are stored (cee_boxed_from_u64 does not store its function), and that nothing calls them (cee_cmp is declared and not defined; the functions take values where boxes would be passed). Comparison of floating point numbers is that of IEEE 754 on their bits, as defined in the model. |
| C139 | The end of a string | str.c: cee_str_end; str.c: cee_str_catf | False for blocks without terminator, such as those of cee_str_strn: the comment of the function (str.c:166-168) promises NULL, but bytes are read that are uninitialised or behind the block. Proved for all others. Appending with cee_str_add is C24. Appended texts are below 2^31 bytes and do not alias the string. |
| C17 | The block chain can be walked forward from the state to its end | cee-resize.h: chain, resize; state.c: cee_state_gc, sweep | claim is false of the code after a resize of a block that is not the last; the partial theorem characterises exactly when it holds |
| C19 | Collector keeps the private parts of a live container alive | map.c: trace; closure.c: trace | The claim is false: the first gc frees insertion_ordered_keys of every live map (even the state's own contexts map) and rooted closures; proved for the container kinds that mark all they hold. |
| C20 | Collection terminates on every heap | state.c: cee_state_gc; list.c: trace | False for cyclic graphs (general theorem: any cycle below the state makes marking recurse without bound); proved for acyclic graphs. |
| C22 | Reference counts never lose references | cee.h: struct cee_sect in_degree; cee-common.c: _cee_common_incr_rc, cee_del_ref | true for fewer than 65536 holders, false for 65536*j+1 (in_degree is 16 bits wide) |
| C24 | String append never writes outside its buffer | str.c: cee_str_mkv, cee_str_add, cee_str_catf, cee_str_replace | all histories of cee_str_add/catf/replace/use_malloc/use_realloc under the stated conditions; refuted for cee_str_add after cee_use_realloc, from 4 GiB on, and for strings made by cee_str_strn; length <= capacity (not <) |
| C25 | Trimming removes exactly the surrounding white space | str.c: cee_str_rtrim, cee_str_ltrim; cee.h:226-236 | exact behaviour of both functions for every string; the documented claim is false for blank strings (rtrim) and for every string with leading white space (ltrim) |
| C27 | Replace-all is textually correct and memory safe | str.c: str_replace_all, str_replace_all_ext | exact characterisation of the inputs on which the function is correct and of those on which it overruns its buffer |
| C29 | Splitting by a string delimiter | strview.c: sv_chop_by_sv | False when the first occurrence is at the very end of the text (the delimiter is returned with the text) and when the delimiter is longer than the text (pointer past the array, or a wrapped count). Proved otherwise. |
| C34 | Printing never silently drops data | cee-json/snprint.c: cee_json_snprint; cee-json/parser.c: cee_json_max_depth | False: from 500 nested values on the loop leaves because the stack is full, and only the opening brackets are returned, without an error; for 500..511 nested arrays the parser accepts the text, and what is printed for the value is refused by the parser. C33_compact is the part that holds (nesting below 500). cee_json_dprintf loses the same data (C34_dprintf). |
| C38 | Invalid JSON is rejected | cee-json/parser.c: st_array_value_or_close_expected; cee-json/tokenizer.c: parse_number | False: every array with a trailing comma is accepted, and every number with leading zeros and a fraction. C38_partial: plain integers with leading zeros are refused. |
| C44 | Lexical environments | env.c: cee_env_find | False: an environment with NULL vars hides the outer ones, and a binding to NULL does not hide them. C44_partial: every chain of environments that have a map, for bindings to something; maps reachable by any history of fewer than 2^31 operations. |
| C45 | Text conversion to integer | cee-json/value.c: cee_json_object_convert_to_i64 | False: no string is ever converted, and a missing key is UB. C45_partial: true is returned exactly for a value that is an integer already and nothing is changed. |
| C46 | Escaping into a caller buffer never overflows it | cee-json/value.c: cee_json_escape_string | False: every escape that does not fit overruns the buffer; control characters without a short escape give four of the six bytes. C46_partial: right, and no write outside, when the escape fits and no such control character occurs. C46_text: for every text, given three bytes to spare, the counted text is known, and all control characters without a letter become the same four characters. C46_last: a single one at the end is written in full, but two characters are not counted. |
| C47 | SQL binding precedence | sqlite3/cee-sqlite3.c: cee_sqlite3_bind_run_sql | Precedence holds as stated. "At most once" is false for a table with two rows of one name (C47_twice_false); C47_general says what is bound then: the value of every such row in turn. SQLite is a log of calls; names have one index. |
| C48 | Linear search and intrusive queue primitives | musl-lsearch.c: musl_lsearch, musl_lfind; musl-insque.c: musl_insque, musl_remque | Everything but the append of musl_lsearch holds as stated. musl_lsearch copies an absent key to where the next cell points instead of storing it: UB for a cell not set (C48_lsearch_false). C48_lsearch_partial: right when the next cell already points to room. |
| C49 | Tuples own what they store | tuple.c: cee_tuple_mk_e; triple.c: cee_triple_mk_e | construction exact for every policy vector; deletion exact unless an argument is retained (then a reference is dropped that was never taken, refuted) |
| C50 | Database start-up decision logic | sqlite3/cee_dbm.c: cee_dbm_db_init | Names of 128 bytes and more are cut, so scripts that exist are not run (C50_long_false); the migration script is chosen by the version before the restoration (C50_restored_false); without a creation script a database that shall be made anew is emptied (C50_emptied). C50_partial: exactly which scripts are run, in which order, what the content is; C50_total: no failure if no script fails. The log database and directories are left out. |
| C51 | A set can be deleted | set.c: S(trace), S(free_pair_follow); musl-tsearch.c: musl_tdestroy | False of the code: deletion is defined exactly for the empty set. |
| C52 | Iterating over an empty list reports success | list.c: cee_list_iterate | claim is false of the code: the uninitialised variable ret is returned |
| C54 | cee_str_mk_e allocates the requested size | str.c: cee_str_mk_e; cee.h:173-192 | true without a format, false with one (n is ignored) |
| C55 | Multi-needle replacement is correct and memory safe | str.c: str_replace_all_ext | exact characterisation, a sufficient condition, and two refutations |
| C56 | Accepted string literals denote well-formed text | cee-json/tokenizer.c: json_string_unescape, parse_string | False: a lone high surrogate at the end is dropped silently, literals without escapes are not checked for UTF-8, and text after an escaped NUL is lost. C31_decode_exact and C31_decode_plain say exactly what is accepted. |
| C57 | cee_json_snprint respects the buffer size | cee-json/snprint.c: cee_json_snprint | False: the parameter size is never read. What holds: a buffer of one byte more than the first pass returned is never overrun. |
| C58 | Pretty printing works at every depth below the stack bound | cee-json/snprint.c: struct counter (char tabs), pad | False from 129 nested values on: tabs is a signed char, becomes negative and moves the offset backwards over written text. C33_pretty proves it up to 128. |
| C59 | Integers outside 64 bits are refused or kept | cee-json/tokenizer.c: parse_number | False: every integer of 2^63 or more is read as 2^63 - 1 without an error, hence unsigned values of 2^63 or more are not preserved. C59_partial: exact within 64 bits signed. |
| C60 | The parser reads only the given text | cee-json/tokenizer.c: parse_number, parse_string, check; cee-json/value.c: cee_json_load_from_fileno | False: a number at the end of the buffer is read past it; load_from_fileno allocates no NUL. C60_partial: with a NUL at buf[len] nothing beyond it is read. |
| C61 | Save then load gives the value back | cee-json/value.c: cee_json_save_fileno, cee_json_load_from_fileno | Holds for every array and object; false for numbers at top level, which are read past the end of the block. System calls are assumed to succeed and transfer everything here; C108 is about those that do not. |
| C62 | Merging leaves the sources alone | cee-json/value.c: cee_json_merge, merge_json_value; map.c: cee_map_merge | False: {} merged with {"a":{}} and then {"a":{"b":null}} changes the first source. C62_partial: holds for arrays merged into an array, any number of them. |
| C63 | An own key is preferred in deep search | cee-json/value.c: cee_json_has, match_key | False: in {"a":{"k":true},"k":false} the inner value is found. C63_partial: the own key is found if no value below has the key. |
| C64 | An array can be appended to itself | cee-json/value.c: cee_json_array_concat, cee_json_merge; list.c: cee_list_merge | False for every nonempty array: no number of turns is enough. C64_partial: two different arrays are concatenated. |
| C65 | Appending to an object key | cee-json/value.c: cee_json_object_append, cee_json_listify | False: old value an object is UB (cee_get_state(NULL)), a number, truth value or null a segfault. C65_partial: absent key, array and string. |
| C66 | Field name from the arguments | cee-json/value.c: cee_json_select | False for every nonempty name that fits. What holds: keys written in the path itself (C41_select). |
| C67 | Path selection reads only the path | cee-json/value.c: cee_json_select | False for paths ending in a selector character after a part that is found. Holds for the paths of C41. |
| C68 | Number check in a path | cee-json/value.c: cee_json_select | False: doubles and unsigned numbers are refused. C68_partial: accepts exactly the signed integers. |
| C69 | Numbers as int | cee-json/value.c: cee_json_to_intx, cee_json_select_as_int | False: 2^32+5 is given as 5. C69_partial: exact for every number that is an int; the result is always congruent mod 2^32; nothing but signed integers is accepted. |
| C70 | JSON array insertion is bounds-checked | cee-json/value.c: cee_json_array_insert; list.c: cee_list_insert | False for every index below 0 or above the size. C70_partial: 0..size. |
| C72 | Statements with missing values are not run | sqlite3/cee-sqlite3.c: cee_sqlite3_bind_run_sql | False: a parameter that is named in the table counts as bound although it got no value. C72_partial: run iff every parameter is named in the table, else the error names the first that is not. |
| C73 | Prepared statements are finalized | sqlite3/cee-sqlite3.c: cee_sqlite3_bind_run_sql | False: the statement is not finalized when a parameter is not in the table. C73_partial: finalized once after it was run, never otherwise. |
| C75 | Values from a JSON object | sqlite3/cee-sqlite3.c: populate_usage; sqlite3/cee-sqlite3.c: cee_sqlite3_bind_data_from_json | False: NULL stays bound once an object had null for a column, numbers are cut to int without an error, a number for a text column goes through a NULL pointer, as does any value for a blob column without a place for errors. C75_partial, C75_bound: unused data, values that fit, one row per column. C75_call: the function with its arrays of names. C75_silent_false: without an array for errors a value of a wrong type in front hides all others, and 0 is returned in any case. |
| C76 | Table from a JSON object | sqlite3/cee-sqlite3.c: cee_json_to_bind_info; sqlite3/cee-sqlite3.c: f | False for two keys: the first key that is not null fills all rows. C76_partial says what the table is for every object of numbers, texts and nulls; C76_single: right for one key. |
| C78 | Insertion of JSON objects | sqlite3/cee-sqlite3.c: collect_colums_values; sqlite3/cee-sqlite3.c: insert_one_json_object | False for 50 or more values that are not null: the array of 50 rows is overrun, for every such object (C78_false). Right for up to 49. The parameters SQLite finds in the text are a hypothesis of C78_bound. |
| C79 | $HOME in paths | sqlite3/cee_dbm.c: replace_home_env; sqlite3/cee_dbm.c: cee_dbm_path_info_normalize | False: results of 128 bytes overrun the array for every such path (C79_long_false), and $HOME in the middle cuts off the first five bytes instead. |
| C80 | Descriptions of settings | sqlite3/cee_dbm.c: cee_dbm_path_info2str; sqlite3/cee_dbm.c: cee_dbm_db_info2str | False for every description of which a text that is not the last goes beyond the buffer: the size wraps around and the next text is written outside (C80_false). |
| C81 | Backup | sqlite3/cee_dbm.c: cee_dbm_db_backup | False: true is returned although the command failed, and long commands are cut. |
| C82 | Rows | sqlite3/cee-sqlite3.c: cee_sqlite3_select; sqlite3/cee-sqlite3.c: dont_return_colum | C82_row: the object of a row, for every table and row; C82_bare: a single column that is returned as a bare value; C82_value: different values stay different. False for texts with NUL bytes, which are cut (C82_text_false). |
| C83 | Selection | sqlite3/cee-sqlite3.c: cee_sqlite3_select_iter; sqlite3/cee-sqlite3.c: cee_sqlite3_select | False: a status that is not an array crashes; a statement that fails after a first row is stepped for ever (C83_hang_false); a failure is lost if the status is an array; a failing first step leaves the statement behind (C83_left_false). |
| C84 | Selection of one row | sqlite3/cee-sqlite3.c: cee_sqlite3_select1 | C84_rows: what the status is, for every result without failure. C84_failed: errors are reported, but a status with an error that is not a text crashes. |
| C85 | Update or insertion | sqlite3/cee-sqlite3.c: cee_sqlite3_update_or_insert | False if the selection fails: the insertion is run (C85_failed_false). |
| C86 | Errors of statements are reported | sqlite3/cee-sqlite3.c: cee_sqlite3_insert; sqlite3/cee-sqlite3.c: cee_sqlite3_delete | False for updates of which the selection gives no row or fails when it is run: nothing is reported (C86_update_false). |
| C87 | Operations with JSON | sqlite3/cee-sqlite3.c: cee_sqlite3_generic_opcode; sqlite3/cee-sqlite3.c: cee_sqlite3_insert_op | C87_insert: the whole insertion of an object, from its values to the parameters of the composed statement, the error and the id. C87_update, C87_update_or_insert, C87_update_nothing: the same for updates: the selection with the values of the object decides, the template is filled with the columns of the object that may change, and the statement is run with the values; that the parameters of the statements are variables of the table is a hypothesis (Knows), and the values fit (Fits). A selection that fails counts as one that finds no row, so the insertion is then run: the theorem says so. False: a selection with a place for the result never succeeds (C87_select_false); an insertion without a place for the result inserts the row and then dereferences NULL (C87_insert_null_false); with a value of a wrong type the statement is run without it (C87_error_false), and an error of the database is then overwritten (C87_lost_false). C87_report: what the status says under debug about keys and statements. |
| C88 | Results under a key | sqlite3/cee-sqlite3.c: cee_sqlite3_select_as; sqlite3/cee-sqlite3.c: cee_sqlite3_select1_as | C88_rows, C88_one: the result under the key, everything else unchanged. False without a status or without a row or if the selection of one row fails. |
| C89 | Next number | sqlite3/cee-sqlite3.c: cee_sqlite3_next_int | C89_partial: for numbers below 2^31 and short clauses. False for larger numbers (C89_int_false) and for clauses that do not fit into the buffer of 128 bytes (C89_long_false). |
| C90 | Joins | sqlite3/join.c: join_one; sqlite3/join.c: cee_sqlite3_json_array_join_table | C90_array, C90_bound: for columns of type INT and TEXT, by induction over the array. False for columns of type INT64 (the value is written to the wrong member), for data marked NULL or with a size (kept from before), and after an object without the key or a failing selection the remaining objects are not joined. C90_object: the same for an object by itself; C90_object_array: which is the same as the array of this object, in every case. |
| C91 | Formatted strings | str.c: cee_str_mkv; str.c: cee_str_mk | False for cee_str_mk and cee_str_mkv with every format that takes an argument: both calls of vsnprintf get the same va_list, the copy is not used (C91_mk_false). Right for formats without arguments, and for cee_str_mk_e, cee_str_catf and cee_str_replace. |
| C93 | Ownership of environments and closures | env.c: cee_env_mk; env.c: S(trace) | False as stated: cee_env_mk takes over the reference of the outer environment without counting it, so two environments over one outer one free it twice, and a closure does not count its environment. Proved: an unshared chain of any length is freed exactly once and nothing else changes; deleting a closure frees only the closure. |
| C96 | Merging JSON files | cee-json/cee_json_merge.c: cee_json_merge_all; cee-json/value.c: cee_json_merge | False as stated: a failing write is ignored and 0 returned, a first file that holds no object crashes after merged was emptied, further files without an object are silently ignored. Proved: with objects and a successful write the result loads to the merge (C40) of all files plus the names, up to the order of keys; missing or refused inputs return 1 with merged untouched, for any number and position of the bad file. |
| C97 | mkdir_p makes the missing directories | sqlite3/cee_dbm.c: mkdir_p_ext; sqlite3/cee_dbm.c: mkdir_p | False as stated: 0 for a path that leads to a file; a crash for missing paths that end in /. or /.. (after making everything) and whenever a directory cannot be made. Proved: for paths of names with any slashes the claim holds when no file is in the way; for every path only directories are added, the result is 0 or a crash, and with 0 the path leads to something. |
| C98 | Initializing a database is all or nothing | sqlite3/cee-sqlite3.c: cee_sqlite3_init_db | False as stated: after a failing statement the connection of the caller is replaced by NULL with the transaction still open, a connection opened for it is never closed, a failing open is undefined behaviour (db_p NULL) or goes unreported. Proved: with a transaction the disk holds the whole effect exactly if the function returns, and otherwise the old content; without one the effect of the statements before the failing one. |
| C99 | Databases are found by their names | sqlite3/cee_dbm.c: cee_dbm_db_exist; sqlite3/cee_dbm.c: cee_dbm_open_db | False for long names: with a directory of 127 bytes every database exists, and an alias is cut so that the database is attached under another name. Proved: exact results for names that fit. |

## 6. Axioms per theorem

Output of `#print axioms` for every theorem of the manifest (prefix `Verif.` left out).

**none** (5):

`Str.Props.C24_add_realloc_false`, `Env.Props.C44_novars_false`, `Sqlite.Props.C82_text_false`,
`Dbm.Props.C97_null`, `Dbm.Props.C97_file_false`

**propext** (59):

`Map.Props.C06_clone_order_false`, `Set.Props.C08_readd_size_false`, `CList.Props.C10_null`,
`Rc.MapProps.C102_same_value_false`, `Rc.MapProps.C102_merge_old_false`, `Rc.MapProps.C102_merge_new_false`,
`Rc.MapProps.C102_clone_owned_false`, `Rc.SetProps.C103_same_pointer_false`,
`Rc.SetProps.C103_removed_owned_false`, `Rc.SetProps.C103_clear_false`, `Rc.SetProps.C103_union_shared_false`,
`Rc.SetProps.C103_union_noop_false`, `Rc.SetProps.C103_union_owned_false`,
`Rc.SetProps.C103_clone_owned_false`, `Rc.SetProps.C103_dict_noop_false`,
`Rc.SetProps.C103_dict_foreign_false`, `Rc.JsonProps.C105_overwritten_false`,
`Rc.JsonProps.C105_removed_false`, `Rc.JsonProps.C105_rename_missing_false`,
`Rc.JsonProps.C105_same_value_false`, `Rc.GcProps.C107_lost_false`, `Rc.GcProps.C107_owner_false`,
`Rc.GcProps.C107_root_false`, `Rc.JsonProps.C109_leak_false`, `Rc.JsonProps.C109_overwritten_false`,
`Rc.JsonProps.C109_same_false`, `Rc.ContextProps.C111_literal_false`, `TreeMem.Props.C112_stale_false`,
`TreeMem.Props.C112_null_false`, `Block.Props.C117_empty_false`, `Rc.PolicyProps.C127_freed_false`,
`Rc.PolicyProps.C127_leak_false`, `Boxed.Props.C138_nan_false`, `Str.Props.C139_null_false`,
`Str.Props.C27_memory_safety_false`, `Str.Props.C27_empty_old`, `Json.Props.prun_list_total`,
`Json.Props.C45_never_false`, `Json.Props.C45_missing_false`, `Search.Props.C48_insque_null`,
`Rc.Props.C49_n_tuple`, `Rc.Props.C49_retained_argument_false`, `CList.Props.C52_iterate_empty_false`,
`Str.Props.C55_memory_safety_false`, `Json.Props.C64_self_false`, `Json.Props.C65_append_false`,
`Json.Props.C69_int_false`, `Sqlite.Props.C72_false`, `Sqlite.Props.C73_false`,
`Sqlite.Props.C75_stale_false`, `Sqlite.Props.C75_text_false`, `Sqlite.Props.C75_blob_false`,
`Sqlite.Props.C76_nulls`, `Sqlite.Props.C76_false`, `Sqlite.Props.C82_value`, `Dbm.Props.C98_lost_false`,
`Dbm.Props.C98_leak_false`, `Dbm.Props.C98_open_false`, `Dbm.Props.C98_silent_false`

**Quot.sound, propext** (98):

`Rc.MapProps.C102_owned_key_false`, `Rc.MapProps.C102_foreign_key_false`, `Rc.SetProps.C103_delete_false`,
`Rc.JsonProps.C105_concat_self_false`, `Rc.JsonProps.C105_append_object_false`,
`Rc.GcProps.C107_dangling_false`, `Json.Props.C108_local`, `Json.Props.C108_number_false`,
`Json.Props.C108_unreadable_false`, `Rc.JsonProps.C109_self_false`, `Rc.ContextProps.C111_null_false`,
`Cost.Props.C115_same`, `Block.Props.C117_defined`, `Block.Props.C117_huge_false`,
`CList.Props.C12_self_merge_false`, `Rc.GrowProps.C122_retained_false`, `Rc.GrowProps.C122_realloc_false`,
`Json.Props.C125_inf_false`, `Json.Props.C125_integer_false`, `Json.Props.C125_digits_false`,
`Rc.PolicyProps.C127_index`, `Boxed.Props.C138_order`, `Boxed.Props.C138_laws`, `Str.Props.C139_append`,
`Gc.Props.C19_closure_false`, `Gc.Props.C20_cyclic_never_finishes`, `Gc.Props.C20_terminates_false`,
`Rc.Props.C23_retained`, `Rc.Props.C23_retained_by_program`, `Str.Props.C24_append`,
`Str.Props.C24_add_4gib_false`, `Str.Props.C24_strn_false`, `Str.Props.C25_rtrim_exact`,
`Str.Props.C25_rtrim_partial`, `Str.Props.C25_rtrim_false`, `Str.Props.C25_ltrim_exact`,
`Str.Props.C25_ltrim_partial`, `Str.Props.C25_ltrim_false`, `Str.Props.C26_replace_at_offset`,
`Str.Props.C26_out_of_range`, `Strview.Props.C28_index_of`, `Strview.Props.C28_to_u64`,
`Strview.Props.C29_long_delim_false`, `Json.Props.C32_compact`, `Json.Props.C32_pretty`,
`Json.Props.C32_caller_buffer`, `Json.Props.C33_compact`, `Json.Props.C33_pretty`, `Json.Props.C34_truncated`,
`Json.Props.C33_compact`, `Json.Props.C34_dprintf`, `Json.Props.C36_stack`, `Json.Props.C37_accepts`,
`Json.Props.C37_accepts_eof`, `Json.Props.C37_rejects`, `Json.Props.C37_too_deep`,
`Json.Props.C38_leading_zero_false`, `Json.Props.C45_partial`, `Json.Props.C46_overflow_false`,
`Json.Props.C46_control_false`, `Json.Props.C46_partial`, `Sqlite.Props.C47_twice_false`,
`Search.Props.C48_lfind`, `Search.Props.C48_lsearch_found`, `Search.Props.C48_lsearch_false`,
`Search.Props.C48_lsearch_partial`, `Search.Props.C48_insque`, `Search.Props.C48_remque`,
`Search.Props.C48_insque_list`, `Search.Props.C48_remque_list`, `Rc.Props.C49_tuple_mk`,
`Rc.Props.C49_null_argument`, `Str.Props.C54_mk_e_no_format`, `Str.Props.C54_mk_e_size_false`,
`Str.Props.C55_safe`, `Str.Props.C55_delete_false`, `Json.Props.C57_size_ignored_false`,
`Json.Props.C32_caller_buffer`, `Json.Props.C58_pretty_deep_false`, `Json.Props.C33_pretty`,
`Json.Props.C60_beyond_false`, `Json.Props.C62_partial`, `Json.Props.C64_partial`, `Sqlite.Props.C73_partial`,
`Sqlite.Props.C74_kind`, `Sqlite.Props.C74_other`, `Sqlite.Props.C77_bound`, `Dbm.Props.C80_partial`,
`Dbm.Props.C80_false`, `Sqlite.Props.C82_bare`, `Sqlite.Props.C82_kinds`, `Str.Props.C91_mk_partial`,
`Str.Props.C91_mk_false`, `Str.Props.C91_others`, `Json.Props.C96_ignored_false`, `Dbm.Props.C98_partial`,
`Dbm.Props.C98_plain`, `Dbm.Props.C99_exist_false`

**Classical.choice, Quot.sound, propext** (392):

`Map.Props.C01_map_refines`, `Map.Props.C02_insertion_order`, `Map.Props.C03_enumeration`,
`Tree.Props.C04_tree_path_array`, `Map.Props.C05_merge`, `Map.Props.C05_clone`,
`Map.Props.C06_clone_order_partial`, `Set.Props.C07_set_refines`, `Set.Props.C08_readd_partial`,
`Set.Props.C09_union`, `Set.Props.C09_clone`, `CList.Props.C10_list_refines`, `Dbm.Props.C100_partial`,
`Dbm.Props.C100_detach`, `Dbm.Props.C100_quote_false`, `Dbm.Props.C100_memory_false`,
`Dbm.Props.C101_partial`, `Dbm.Props.C101_zero_false`, `Rc.MapProps.C102_partial`,
`Rc.MapProps.C102_contents_live`, `Rc.MapProps.C102_results`, `Rc.MapProps.C102_delete`,
`Rc.MapProps.C102_clone`, `Rc.MapProps.C102_removed_key_false`, `Rc.SetProps.C103_partial`,
`Rc.SetProps.C103_contents_live`, `Rc.SetProps.C103_clear`, `Rc.SetProps.C103_remove`,
`Rc.SetProps.C103_stack`, `Rc.SetProps.C103_union`, `Rc.SetProps.C103_clone`,
`Rc.SetProps.C103_removed_false`, `Dbm.Props.C104_partial`, `Dbm.Props.C104_rows`,
`Dbm.Props.C104_directories`, `Dbm.Props.C104_first_false`, `Dbm.Props.C104_cut_false`,
`Dbm.Props.C104_self_false`, `Dbm.Props.C104_root_false`, `Dbm.Props.C104_interrupted_false`,
`Rc.JsonProps.C105_partial`, `Rc.JsonProps.C105_parts`, `Rc.JsonProps.C105_delete`, `Rc.JsonProps.C105_calls`,
`Rc.ParseProps.C106_partial`, `Rc.ParseProps.C106_safe`, `Rc.ParseProps.C106_text_partial`,
`Rc.ParseProps.C106_text_rejects`, `Rc.ParseProps.C106_twice_false`, `Rc.ParseProps.C106_error_false`,
`Rc.GcProps.C107_partial`, `Rc.GcProps.C107_gc_exact`, `Json.Props.C108_cut`, `Json.Props.C108_more`,
`Json.Props.C108_buffer`, `Json.Props.C108_partial`, `Json.Props.C108_digit_false`,
`Json.Props.C108_short_false`, `Rc.JsonProps.C109_partial`, `Rc.JsonProps.C109_objects`,
`Rc.JsonProps.C109_arrays`, `Rc.JsonProps.C109_memory`, `Rc.JsonProps.C109_or_return`,
`CList.Props.C11_iterate`, `CList.Props.C11_merge`, `Sqlite.Props.C110_ops`, `Sqlite.Props.C110_arrays`,
`Sqlite.Props.C110_join`, `Sqlite.Props.C110_partial`, `Sqlite.Props.C110_refused_false`,
`Sqlite.Props.C110_empty_false`, `Sqlite.Props.C110_type_false`, `Sqlite.Props.C110_keys_false`,
`Rc.ContextProps.C111_partial`, `Rc.ContextProps.C111_collected_false`, `TreeMem.Props.C112_partial`,
`TreeMem.Props.C112_values`, `TreeMem.Props.C112_stable`, `TreeMem.Props.C112_parent`,
`Own.Props.C113_partial`, `Own.Props.C113_owner`, `Own.Props.C113_delState`, `Own.Props.C113_null_false`,
`Own.Props.C113_setDel_false`, `Json.Props.C114_partial`, `Json.Props.C114_again`, `Json.Props.C114_order`,
`Json.Props.C114_neutral`, `Json.Props.C114_group_false`, `Json.Props.C114_again_false`,
`Cost.Props.C115_partial`, `Cost.Props.C115_remove`, `Cost.Props.C115_remove_false`,
`Cost.Props.C115_history`, `Cost.Props.C115_merge`, `Cost.Props.C115_set`, `Cost.Growth.C116_list_partial`,
`Cost.Growth.C116_list_false`, `Cost.Growth.C116_str_partial`, `Cost.Growth.C116_str_false`,
`Cost.Growth.C116_table`, `Cost.Growth.C116_dict_false`, `Block.Props.C117_block`, `Block.Props.C117_header`,
`Block.Props.C117_nonzero`, `Block.Props.C117_room`, `Block.Props.C117_blob`, `Block.Props.C117_blob_false`,
`Block.Props.C117_op`, `Json.Props.C118_partial`, `Json.Props.C118_crlf_false`, `Own.WalkProps.C119_lists`,
`Own.WalkProps.C119_ordered`, `Own.WalkProps.C119_merge`, `Own.WalkProps.C119_merge_find`,
`Own.WalkProps.C119_self`, `Own.WalkProps.C119_clone`, `Own.WalkProps.C119_values`,
`Own.WalkProps.C119_set_clone`, `Own.WalkProps.C119_union`, `CList.Props.C11_merge`,
`Own.IterateProps.C120_frame`, `Own.IterateProps.C120_iterate`, `Own.IterateProps.C120_set_iterate`,
`Own.IterateProps.C120_remove_false`, `Own.IterateProps.C120_update`, `Own.IterateProps.C120_add_false`,
`InPlace.C121_set`, `InPlace.C121_map`, `InPlace.C121_removed`, `Rc.GrowProps.C122_partial`,
`Rc.GrowProps.C122_count_false`, `Sqlite.Props.C123_partial`, `Sqlite.Props.C123_empty_false`,
`Sqlite.Props.C123_reuse_false`, `Sqlite.Props.C124_found`, `Sqlite.Props.C124_absent`,
`Sqlite.Props.C124_failed`, `Sqlite.Props.C124_error_column_false`, `Sqlite.Props.C124_bare_false`,
`Json.Props.C125_compact_partial`, `Json.Props.C125_pretty_partial`, `Json.Props.C125_not_longer`,
`Json.Props.C125_example`, `Json.Props.C126_rfc`, `Json.Props.C126_undefined_false`,
`Json.Props.C126_inf_false`, `Json.Props.C126_latin1_false`, `Rc.PolicyProps.C127_partial`,
`Rc.PolicyProps.C127_exact_iff`, `Rc.PolicyProps.C127_detach`, `Sqlite.Props.C128_partial`,
`Sqlite.Props.C128_null_false`, `Sqlite.Props.C129_partial`, `Stack.Props.C13_stack_refines`,
`Sqlite.Props.C130_partial`, `Sqlite.Props.C130_same`, `Rc.PrintProps.C131_partial`,
`Rc.PrintProps.C131_asprint`, `Rc.PrintProps.C131_deep_false`, `Rc.PrintProps.C131_blob_false`,
`Rc.PrintProps.C131_retained_false`, `Rc.RoundProps.C132_partial`, `Rc.RoundProps.C132_pretty_partial`,
`Rc.RoundProps.C132_text_partial`, `Rc.RoundProps.C133_save`, `Rc.RoundProps.C133_partial`,
`Rc.RoundProps.C134_partial`, `Rc.RoundProps.C134_all_partial`, `Rc.RoundProps.C134_mixed_partial`,
`Rc.RoundProps.C134_error_false`, `Rc.RoundProps.C135_serve`, `Rc.RoundProps.C135_unique`,
`Rc.ParseProps.C135_delete`, `Rc.RoundProps.C136_hold`, `Rc.RoundProps.C136_print`,
`Rc.RoundProps.C136_delete`, `Rc.RoundProps.C137_session`, `Rc.RoundProps.C137_clean`,
`Rc.RoundProps.C137_lost`, `Rc.RoundProps.C137_bound`, `Boxed.Props.C138_equal`, `Str.Props.C139_end`,
`Hash.Props.C14_dict_first_write_wins`, `Hash.Props.C15_probe_terminates`, `Chain.Props.C16_state_delete`,
`Chain.Props.C17_forward_false`, `Chain.Props.C17_forward_partial`, `Gc.Props.C18_gc`,
`Gc.Props.C19_private_parts_partial`, `Gc.Props.C19_private_parts_false`, `Gc.Props.C20_terminates_partial`,
`Rc.Props.C21_refcounting`, `Rc.Props.C21_del_ref_exact`, `Rc.Props.C22_references_lost_partial`,
`Rc.Props.C22_references_lost_false`, `Str.Props.C27_replace_all`, `Strview.Props.C28_trim_left`,
`Strview.Props.C28_trim_right`, `Strview.Props.C28_trim`, `Strview.Props.C28_chop_left`,
`Strview.Props.C28_chop_right`, `Strview.Props.C28_chop_by_delim`, `Strview.Props.C28_try_chop_by_delim`,
`Strview.Props.C28_eq`, `Strview.Props.C28_starts_with`, `Strview.Props.C28_ends_with`,
`Strview.Props.C28_eq_ignorecase`, `Strview.Props.C28_chop_u64`, `Strview.Props.C28_take_left_while`,
`Strview.Props.C28_chop_left_while`, `Strview.Props.C29_split_partial`, `Strview.Props.C29_split_false`,
`Json.Props.C30_roundtrip`, `Json.Props.C30_encode_is_utf8`, `Json.Props.C30_decode_exact`,
`Json.Props.C30_validate_exact`, `Json.Props.C30_surrogates`, `Json.Props.C30_html`, `Json.Props.C31_fits`,
`Json.Props.C31_control_refused`, `Json.Props.C31_decode_exact`, `Json.Props.C31_decode_plain`,
`Json.Props.C31_parse_string_safe`, `Json.Props.C31_roundtrip`, `Json.Props.C33_no_nul`,
`Json.Props.C33_dprintf`, `Json.Props.C34_not_stable`, `Json.Props.C35_parse`, `Json.Props.C35_roundtrip`,
`Json.Props.C35_roundtrip_pretty`, `Json.Props.C36_token`, `Json.Props.C36_ends`, `Json.Props.C36_too_deep`,
`Json.Props.C37_duplicates`, `Json.Props.C38_trailing_comma_false`, `Json.Props.C38_partial`,
`Json.Props.C39_has`, `Json.Props.C39_exists`, `Json.Props.C40_merge`, `Json.Props.C40_meaning`,
`Json.Props.C40_exists`, `Json.Props.C40_again`, `Json.Props.C41_select`, `Json.Props.C41_index`,
`Json.Props.C41_check`, `Json.Props.C41_types`, `Json.Props.C42_get`, `Json.Props.C42_remove`,
`Boxed.Props.C43_roundtrip`, `Env.Props.C44_null_false`, `Env.Props.C44_partial`, `Json.Props.C46_text`,
`Json.Props.C46_last`, `Sqlite.Props.C47_general`, `Sqlite.Props.C47_partial`, `Sqlite.Props.C47_total`,
`Rc.Props.C49_mk_delete`, `Dbm.Props.C50_partial`, `Dbm.Props.C50_total`, `Dbm.Props.C50_long_false`,
`Dbm.Props.C50_restored_false`, `Dbm.Props.C50_emptied`, `Set.Props.C51_set_delete_false`,
`Hash.Props.C53_enter_failure_atomic`, `Str.Props.C55_replace_all_ext`, `Json.Props.C31_lone_surrogate_false`,
`Json.Props.C31_invalid_utf8_false`, `Json.Props.C31_nul_false`, `Json.Props.C31_decode_exact`,
`Json.Props.C31_decode_plain`, `Json.Props.C59_clamped_false`, `Json.Props.C59_u64_false`,
`Json.Props.C59_partial`, `Json.Props.C60_overread_false`, `Json.Props.C60_load_false`,
`Json.Props.C60_partial`, `Json.Props.C61_save_load`, `Json.Props.C61_number_false`, `Json.Props.C62_false`,
`Json.Props.C63_false`, `Json.Props.C63_partial`, `Json.Props.C65_partial`, `Json.Props.C66_star_false`,
`Json.Props.C41_select`, `Json.Props.C67_overread_false`, `Json.Props.C41_select`, `Json.Props.C41_check`,
`Json.Props.C68_number_false`, `Json.Props.C68_partial`, `Json.Props.C69_partial`,
`Json.Props.C69_select_partial`, `Json.Props.C70_insert_false`, `Json.Props.C70_partial`,
`Boxed.Props.C71_snprint`, `Boxed.Props.C71_float`, `Sqlite.Props.C72_partial`, `Sqlite.Props.C72_reported`,
`Sqlite.Props.C74_words`, `Sqlite.Props.C75_partial`, `Sqlite.Props.C75_bound`,
`Sqlite.Props.C75_error_stops`, `Sqlite.Props.C75_wrap_false`, `Sqlite.Props.C75_call`,
`Sqlite.Props.C75_silent_false`, `Sqlite.Props.C76_partial`, `Sqlite.Props.C76_single`,
`Sqlite.Props.C77_compose`, `Sqlite.Props.C78_partial`, `Sqlite.Props.C78_bound`, `Sqlite.Props.C78_false`,
`Dbm.Props.C79_partial`, `Dbm.Props.C79_none`, `Dbm.Props.C79_normalize`, `Dbm.Props.C79_long_false`,
`Dbm.Props.C79_middle_false`, `Dbm.Props.C80_texts`, `Dbm.Props.C81_partial`, `Dbm.Props.C81_missing`,
`Dbm.Props.C81_failed_false`, `Dbm.Props.C81_long_false`, `Sqlite.Props.C82_row`, `Sqlite.Props.C83_partial`,
`Sqlite.Props.C83_object_segv`, `Sqlite.Props.C83_hang_false`, `Sqlite.Props.C83_failed`,
`Sqlite.Props.C83_array_false`, `Sqlite.Props.C83_left_false`, `Sqlite.Props.C84_rows`,
`Sqlite.Props.C84_failed`, `Sqlite.Props.C85_row`, `Sqlite.Props.C85_absent`, `Sqlite.Props.C85_failed_false`,
`Sqlite.Props.C86_insert`, `Sqlite.Props.C86_delete`, `Sqlite.Props.C86_update`,
`Sqlite.Props.C86_update_false`, `Sqlite.Props.C87_insert`, `Sqlite.Props.C87_update`,
`Sqlite.Props.C87_update_or_insert`, `Sqlite.Props.C87_update_nothing`, `Sqlite.Props.C87_select_false`,
`Sqlite.Props.C87_insert_null_false`, `Sqlite.Props.C87_error_false`, `Sqlite.Props.C87_lost_false`,
`Sqlite.Props.C87_report`, `Sqlite.Props.C88_rows`, `Sqlite.Props.C88_null_false`, `Sqlite.Props.C88_failed`,
`Sqlite.Props.C88_one`, `Sqlite.Props.C88_absent_false`, `Sqlite.Props.C88_one_failed_false`,
`Sqlite.Props.C89_partial`, `Sqlite.Props.C89_int_false`, `Sqlite.Props.C89_failed`,
`Sqlite.Props.C89_long_false`, `Sqlite.Props.C90_array`, `Sqlite.Props.C90_object`,
`Sqlite.Props.C90_object_array`, `Sqlite.Props.C90_bound`, `Sqlite.Props.C90_int64_false`,
`Sqlite.Props.C90_null_false`, `Sqlite.Props.C90_size_false`, `Sqlite.Props.C90_missing_false`,
`Sqlite.Props.C90_failed_false`, `Json.Props.C92_accepts_iff`, `Json.Props.C92_rejects`,
`Json.Props.C92_prefix`, `Json.Props.C92_rfc`, `Json.Props.C92_one_value`, `Json.Props.C92_beyond_rfc_false`,
`Json.Props.C92_not_rfc`, `Rc.EnvProps.C93_partial`, `Rc.EnvProps.C93_closure`,
`Rc.EnvProps.C93_shared_outer_false`, `Rc.EnvProps.C93_outer_first_false`, `Rc.EnvProps.C93_closure_false`,
`Json.BuildProps.C94_refines`, `Json.BuildProps.C94_set_get`, `Json.BuildProps.C95_bool`,
`Json.Props.C96_partial`, `Json.Props.C96_input_error`, `Json.Props.C96_output_error`,
`Json.Props.C96_write_false`, `Json.Props.C96_truncated_false`, `Dbm.Props.C97_partial`,
`Dbm.Props.C97_sound`, `Dbm.Props.C97_dot_false`, `Dbm.Props.C97_denied_false`, `Dbm.Props.C99_partial`,
`Dbm.Props.C99_attach`, `Dbm.Props.C99_name_false`
