{
 "claims": [
  {
   "property": "C01",
   "status": "proved",
   "theorems": [
    "Verif.Map.Props.C01_map_refines"
   ],
   "note": "Histories of fewer than 2^31 operations (cee_map_remove truncates the list size to int); NULL values only with policy NOOP (anything else dereferences NULL). Spec laws: spec_lookup_insert, spec_lookup_erase, spec_present_insert."
  },
  {
   "property": "C02",
   "status": "proved",
   "theorems": [
    "Verif.Map.Props.C02_insertion_order"
   ],
   "note": ""
  },
  {
   "property": "C03",
   "status": "proved",
   "theorems": [
    "Verif.Map.Props.C03_enumeration"
   ],
   "note": ""
  },
  {
   "property": "C04",
   "status": "proved",
   "theorems": [
    "Verif.Tree.Props.C04_tree_path_array"
   ],
   "note": "Arbitrary (even inconsistent) comparator answers."
  },
  {
   "property": "C05",
   "status": "proved",
   "theorems": [
    "Verif.Map.Props.C05_merge",
    "Verif.Map.Props.C05_clone"
   ],
   "note": "dest and src distinct."
  },
  {
   "property": "C06",
   "status": "partial",
   "theorems": [
    "Verif.Map.Props.C06_clone_order_false",
    "Verif.Map.Props.C06_clone_order_partial"
   ],
   "note": "The claim is false of the code (clone re-adds in tree preorder); negation proved with a witness, and the exact order of the clone characterised."
  },
  {
   "property": "C07",
   "status": "proved",
   "theorems": [
    "Verif.Set.Props.C07_set_refines"
   ],
   "note": ""
  },
  {
   "property": "C08",
   "status": "partial",
   "theorems": [
    "Verif.Set.Props.C08_readd_size_false",
    "Verif.Set.Props.C08_readd_partial"
   ],
   "note": "False of the code for the same pointer; holds for an equal element with a different pointer."
  },
  {
   "property": "C09",
   "status": "proved",
   "theorems": [
    "Verif.Set.Props.C09_union",
    "Verif.Set.Props.C09_clone"
   ],
   "note": "Size of the union is exact only when no pointer is in both sets (see C08)."
  },
  {
   "property": "C10",
   "status": "proved",
   "theorems": [
    "Verif.CList.Props.C10_list_refines",
    "Verif.CList.Props.C10_null"
   ],
   "note": "lists shorter than 2^31 elements (the loop counters are int), malloc succeeds"
  },
  {
   "property": "C100",
   "status": "partial",
   "theorems": [
    "Verif.Dbm.Props.C100_partial",
    "Verif.Dbm.Props.C100_detach",
    "Verif.Dbm.Props.C100_quote_false",
    "Verif.Dbm.Props.C100_memory_false"
   ],
   "note": "False as stated: a quote in the file name ends the path and the rest is run as SQL; a database in memory is undefined behaviour. Proved: for names without quotes and a large enough buffer, reading the statement back gives the path and the alias."
  },
  {
   "property": "C101",
   "status": "partial",
   "theorems": [
    "Verif.Dbm.Props.C101_partial",
    "Verif.Dbm.Props.C101_zero_false"
   ],
   "note": "False as stated: every failure reads as 0, so that a database that cannot be opened has version 0. Proved: the value for names of at most 247 bytes."
  },
  {
   "property": "C102",
   "status": "partial",
   "theorems": [
    "Verif.Rc.MapProps.C102_partial",
    "Verif.Rc.MapProps.C102_contents_live",
    "Verif.Rc.MapProps.C102_results",
    "Verif.Rc.MapProps.C102_delete",
    "Verif.Rc.MapProps.C102_clone",
    "Verif.Rc.MapProps.C102_same_value_false",
    "Verif.Rc.MapProps.C102_merge_old_false",
    "Verif.Rc.MapProps.C102_merge_new_false",
    "Verif.Rc.MapProps.C102_owned_key_false",
    "Verif.Rc.MapProps.C102_foreign_key_false",
    "Verif.Rc.MapProps.C102_clone_owned_false",
    "Verif.Rc.MapProps.C102_removed_key_false"
   ],
   "note": "False as stated: giving a key its own value again, merging into the old value, merging to a third object, owned keys, keys that are no blocks, clones of maps that own their values, and removed keys each break the counts. Proved for every program that avoids these: no undefined behaviour, exact counts, exact set of live blocks."
  },
  {
   "property": "C103",
   "status": "partial",
   "theorems": [
    "Verif.Rc.SetProps.C103_partial",
    "Verif.Rc.SetProps.C103_contents_live",
    "Verif.Rc.SetProps.C103_clear",
    "Verif.Rc.SetProps.C103_remove",
    "Verif.Rc.SetProps.C103_stack",
    "Verif.Rc.SetProps.C103_union",
    "Verif.Rc.SetProps.C103_clone",
    "Verif.Rc.SetProps.C103_same_pointer_false",
    "Verif.Rc.SetProps.C103_removed_false",
    "Verif.Rc.SetProps.C103_removed_owned_false",
    "Verif.Rc.SetProps.C103_delete_false",
    "Verif.Rc.SetProps.C103_clear_false",
    "Verif.Rc.SetProps.C103_union_shared_false",
    "Verif.Rc.SetProps.C103_union_noop_false",
    "Verif.Rc.SetProps.C103_union_owned_false",
    "Verif.Rc.SetProps.C103_clone_owned_false",
    "Verif.Rc.SetProps.C103_dict_noop_false",
    "Verif.Rc.SetProps.C103_dict_foreign_false"
   ],
   "note": "False as stated: adding a pointer twice, removing a member, deleting a set with members, clearing a set its members keep, uniting sets that share a member or do not count, cloning owning sets, NOOP dictionaries and foreign dictionary keys each break the counts. Proved for every program that avoids these: no undefined behaviour, exact counts, exact set of live blocks; union and clone from every such memory."
  },
  {
   "property": "C104",
   "status": "partial",
   "theorems": [
    "Verif.Dbm.Props.C104_partial",
    "Verif.Dbm.Props.C104_rows",
    "Verif.Dbm.Props.C104_directories",
    "Verif.Dbm.Props.C104_first_false",
    "Verif.Dbm.Props.C104_cut_false",
    "Verif.Dbm.Props.C104_self_false",
    "Verif.Dbm.Props.C104_root_false",
    "Verif.Dbm.Props.C104_interrupted_false"
   ],
   "note": "False as stated: at the first start-up the log is opened before its directory is made, so nothing is recorded; rows about scripts are cut to 63 bytes; making the log database anew loses the log; databases in the root directory end the program; a creation script that fails halfway is not run again. Proved otherwise, for every file system and table of scripts: the outcome is that of C50, the directories are made, nothing else is changed, and the rows of the log are exactly those described; if a script fails, the statements before the failing one are on disk and the last row names the script; if the directories cannot be made, the last row is that the database is opened."
  },
  {
   "property": "C105",
   "status": "partial",
   "theorems": [
    "Verif.Rc.JsonProps.C105_partial",
    "Verif.Rc.JsonProps.C105_parts",
    "Verif.Rc.JsonProps.C105_delete",
    "Verif.Rc.JsonProps.C105_calls",
    "Verif.Rc.JsonProps.C105_overwritten_false",
    "Verif.Rc.JsonProps.C105_removed_false",
    "Verif.Rc.JsonProps.C105_rename_missing_false",
    "Verif.Rc.JsonProps.C105_same_value_false",
    "Verif.Rc.JsonProps.C105_concat_self_false",
    "Verif.Rc.JsonProps.C105_append_object_false"
   ],
   "note": "False as stated: a value that is overwritten or removed, and its key, stay in memory without references; renaming a missing key leaves the string of the new name; setting the value that a key has counts it twice; an array appended to itself grows without end. Proved for all programs in which no key is given the (non-static) value it has, arrays are concatenated to other arrays, and no value that is not static is stored beyond 65535 references. appending to a key that has an object or a number (cee_json_object_append) crashes in cee_json_listify. C105_calls: the same for programs that also call cee_json_object_append (on keys with nothing, an array or a string) and cee_json_object_kv. Parsing and merging in counted memory are C106 and C109."
  },
  {
   "property": "C106",
   "status": "partial",
   "theorems": [
    "Verif.Rc.ParseProps.C106_partial",
    "Verif.Rc.ParseProps.C106_safe",
    "Verif.Rc.ParseProps.C106_text_partial",
    "Verif.Rc.ParseProps.C106_text_rejects",
    "Verif.Rc.ParseProps.C106_twice_false",
    "Verif.Rc.ParseProps.C106_error_false"
   ],
   "note": "False as stated: with a key twice in an object the first value stays in memory for good, and on an error the tuples of the stack and what was built stay in memory (C106_safe: after each EINVAL at least one block to which nothing refers, and no more than a bound that is linear in the number of tokens). Proved: the value (with the numbers, and the keys of objects in the order of the text), the counts and the old memory for all input; nothing stays behind after deletion if no object has a key twice."
  },
  {
   "property": "C107",
   "status": "partial",
   "theorems": [
    "Verif.Rc.GcProps.C107_partial",
    "Verif.Rc.GcProps.C107_gc_exact",
    "Verif.Rc.GcProps.C107_lost_false",
    "Verif.Rc.GcProps.C107_dangling_false",
    "Verif.Rc.GcProps.C107_owner_false",
    "Verif.Rc.GcProps.C107_root_false"
   ],
   "note": "Proved for programs that follow GOk: no freed block is used, exactly the blocks of the specification are in memory, and counts are references plus those lost in collections. A collection keeps exactly what is reached, and every second time also garbage made since the last one; no count changes. False in four ways, with witnesses: counts held by collected blocks stay (leak), garbage kept by the second collection holds freed blocks (undefined behaviour when dropped), a block whose owner was collected stays retained (leak), a root that was deleted is read. Cycles among reached blocks are excluded (C20)."
  },
  {
   "property": "C108",
   "status": "partial",
   "theorems": [
    "Verif.Json.Props.C108_cut",
    "Verif.Json.Props.C108_more",
    "Verif.Json.Props.C108_buffer",
    "Verif.Json.Props.C108_local",
    "Verif.Json.Props.C108_partial",
    "Verif.Json.Props.C108_digit_false",
    "Verif.Json.Props.C108_short_false",
    "Verif.Json.Props.C108_number_false",
    "Verif.Json.Props.C108_unreadable_false"
   ],
   "note": "False as stated: a file that cannot be opened ends the program and the size after a failing fstat is indeterminate, a file that ends in a number after the cut is read past its block, a short or failing read is not noticed and bytes that were never stored are read, and a number at top level that is cut is another number. Proved: every cut of an array or object that a NUL follows is refused, every continuation too, the result of a save is exact, and what is loaded from the part written is the value saved or nothing."
  },
  {
   "property": "C109",
   "status": "partial",
   "theorems": [
    "Verif.Rc.JsonProps.C109_partial",
    "Verif.Rc.JsonProps.C109_objects",
    "Verif.Rc.JsonProps.C109_arrays",
    "Verif.Rc.JsonProps.C109_memory",
    "Verif.Rc.JsonProps.C109_or_return",
    "Verif.Rc.JsonProps.C109_leak_false",
    "Verif.Rc.JsonProps.C109_overwritten_false",
    "Verif.Rc.JsonProps.C109_same_false",
    "Verif.Rc.JsonProps.C109_self_false"
   ],
   "note": "Proved: defined, nothing freed, no count too small, exact contents and counts where no nested values are put together. False in the code: a nested value of the source that is merged keeps a count too many, a replaced value stays without references, an object merged into itself counts its values again, an array merged into itself never ends. The source is read before the first entry is added."
  },
  {
   "property": "C11",
   "status": "proved",
   "theorems": [
    "Verif.CList.Props.C11_iterate",
    "Verif.CList.Props.C11_merge"
   ],
   "note": "non-empty lists for the returned value (see C52)"
  },
  {
   "property": "C110",
   "status": "partial",
   "theorems": [
    "Verif.Sqlite.Props.C110_ops",
    "Verif.Sqlite.Props.C110_arrays",
    "Verif.Sqlite.Props.C110_join",
    "Verif.Sqlite.Props.C110_partial",
    "Verif.Sqlite.Props.C110_refused_false",
    "Verif.Sqlite.Props.C110_empty_false",
    "Verif.Sqlite.Props.C110_type_false",
    "Verif.Sqlite.Props.C110_keys_false"
   ],
   "note": "The independence from values is proved for the four operations with an object (C110_ops; keys that are no columns do not count either), for arrays of objects (C110_arrays) and for joins (C110_join). C110_partial: what an array does with any engine. False: keys of the objects of an array are part of the statement as they are (C110_keys_false), 0 is returned even if nothing was stored (C110_refused_false), for an empty array an uninitialised value is returned, and a value of another type ends the program in the middle. The parameters SQLite finds in the text are a hypothesis of C110_partial."
  },
  {
   "property": "C111",
   "status": "partial",
   "theorems": [
    "Verif.Rc.ContextProps.C111_partial",
    "Verif.Rc.ContextProps.C111_literal_false",
    "Verif.Rc.ContextProps.C111_null_false",
    "Verif.Rc.ContextProps.C111_collected_false"
   ],
   "note": "Proved for keys and values that are live blocks, over all histories that follow the rules of C102. False for string literals and other keys that are no blocks (the contexts count their keys: undefined behaviour in every memory), for NULL, and after the first collection, which frees the list of the keys of the contexts."
  },
  {
   "property": "C112",
   "status": "partial",
   "theorems": [
    "Verif.TreeMem.Props.C112_partial",
    "Verif.TreeMem.Props.C112_values",
    "Verif.TreeMem.Props.C112_stable",
    "Verif.TreeMem.Props.C112_parent",
    "Verif.TreeMem.Props.C112_stale_false",
    "Verif.TreeMem.Props.C112_null_false"
   ],
   "note": "Proved on a memory of nodes, store by store, for every allocator: no undefined behaviour, the answers of a set, one node per member, nothing left after musl_tdestroy; the memory always holds the very tree of the value model behind C01-C09, also for inconsistent comparators. False of the code, with witnesses: a node pointer goes stale when another key is deleted (its key moves to another block), and NULL is returned for a present root without a left child. Proved instead: searching and finding never move a key, and the pointer returned by musl_tdelete is NULL or live."
  },
  {
   "property": "C113",
   "status": "partial",
   "theorems": [
    "Verif.Own.Props.C113_partial",
    "Verif.Own.Props.C113_owner",
    "Verif.Own.Props.C113_delState",
    "Verif.Own.Props.C113_null_false",
    "Verif.Own.Props.C113_setDel_false"
   ],
   "note": "Calls, ownership of private blocks and deletion of the state are proved for every history in which no call fails for lack of memory. Two parts of the statement are false. A failing cee_dict_mk frees its block without taking it out of the chain (dict.c:77-80), after which deleting the state is undefined (C113_null_false). Deleting a set that has members is undefined, because the function that deletes the members reads the policy through NULL (set.c:26, 53-57; C113_setDel_false). Lists and tuples inside a dictionary or a map are not used directly by the caller; list and block allocations that the code does not test are taken to succeed; list capacities below 2^60, fewer than 2^31 elements; cee_map_keys, values, merge, clone, union and the walks over trees are not among the calls here (C03, C05, C09); sizes of sets and maps are in C01, C07 and C08; reference counts of elements are in the Rc models, here deletion reports the elements handed to cee_del_e."
  },
  {
   "property": "C114",
   "status": "partial",
   "theorems": [
    "Verif.Json.Props.C114_partial",
    "Verif.Json.Props.C114_again",
    "Verif.Json.Props.C114_order",
    "Verif.Json.Props.C114_neutral",
    "Verif.Json.Props.C114_group_false",
    "Verif.Json.Props.C114_again_false"
   ],
   "note": "Stated of what the printer reads from memory after the calls, up to the order of keys. Order of documents that are apart and neutrality are proved. Grouping and repetition are false in general; both are characterised exactly: grouping does not matter if and only if the documents do not clash (C114_partial), repetition does not matter if and only if no array with elements is reached through keys (C114_again)."
  },
  {
   "property": "C115",
   "status": "partial",
   "theorems": [
    "Verif.Cost.Props.C115_same",
    "Verif.Cost.Props.C115_partial",
    "Verif.Cost.Props.C115_remove",
    "Verif.Cost.Props.C115_remove_false",
    "Verif.Cost.Props.C115_history",
    "Verif.Cost.Props.C115_merge",
    "Verif.Cost.Props.C115_set"
   ],
   "note": "Programs that may only ask for comparisons; C115_same: with the comparison function they give the results of the models of C05 and C06, in every state. Holds for find and add of maps and sets, removal from sets (two searches), merging and any history of finds and adds. False for removal from a map (C115_remove_false): the list of keys in order of insertion is searched from the front, so removing the newest of n entries makes more than n calls; C115_remove gives the exact number, C115_history bounds a whole history with removals and renames."
  },
  {
   "property": "C116",
   "status": "partial",
   "theorems": [
    "Verif.Cost.Growth.C116_list_partial",
    "Verif.Cost.Growth.C116_list_false",
    "Verif.Cost.Growth.C116_str_partial",
    "Verif.Cost.Growth.C116_str_false",
    "Verif.Cost.Growth.C116_table",
    "Verif.Cost.Growth.C116_dict_false"
   ],
   "note": "About the models of C10, C24 and C15; the sizes after every operation are recorded. The copying is linear and the memory in proportion to the largest content reached (lists: twice, strings: twice with 73 bytes for header and terminator, tables: four slots for an entry). False in proportion to the present content: a list or string that was emptied keeps its memory (C116_list_false, C116_str_false), and every addition to a dictionary under a key it already has lengthens its lists of keys and values (C116_dict_false). That replaced blocks of a string stay allocated under the malloc method is C16; here only their sizes are added up."
  },
  {
   "property": "C117",
   "status": "partial",
   "theorems": [
    "Verif.Block.Props.C117_block",
    "Verif.Block.Props.C117_header",
    "Verif.Block.Props.C117_defined",
    "Verif.Block.Props.C117_nonzero",
    "Verif.Block.Props.C117_room",
    "Verif.Block.Props.C117_huge_false",
    "Verif.Block.Props.C117_empty_false",
    "Verif.Block.Props.C117_blob",
    "Verif.Block.Props.C117_blob_false",
    "Verif.Block.Props.C117_op"
   ],
   "note": "Proved at the level of bytes for all sizes below 2^64 - 80. False: for larger sizes the sum with the header overflows and cee_block_mk writes outside the memory (C117_huge_false); cee_block_empty uses the header of str.c, which is 8 bytes shorter, so cee_block_size reads in front of it (C117_empty_false); cee_json_blob_mk copies from NULL for an empty blob of a database (C117_blob_false). malloc is taken to succeed."
  },
  {
   "property": "C118",
   "status": "partial",
   "theorems": [
    "Verif.Json.Props.C118_partial",
    "Verif.Json.Props.C118_crlf_false"
   ],
   "note": "Proved with LF and CR each counted as the end of a line, for all texts. False with lines as usually counted: CR LF counts twice, so that a text of k such lines reports 2k (C118_crlf_false)."
  },
  {
   "property": "C119",
   "status": "proved",
   "theorems": [
    "Verif.Own.WalkProps.C119_lists",
    "Verif.Own.WalkProps.C119_ordered",
    "Verif.Own.WalkProps.C119_merge",
    "Verif.Own.WalkProps.C119_merge_find",
    "Verif.Own.WalkProps.C119_self",
    "Verif.Own.WalkProps.C119_clone",
    "Verif.Own.WalkProps.C119_values",
    "Verif.Own.WalkProps.C119_set_clone",
    "Verif.Own.WalkProps.C119_union"
   ],
   "note": "For containers of one state in the memory model of C113 (private blocks, chain of objects). Merge without a merge function; union of sets with the same comparison function (with different ones the code calls cee_segfault). The clone's keys are in the order of the walk, not in that of the source (see C06). Allocation failures are outcomes."
  },
  {
   "property": "C12",
   "status": "partial",
   "theorems": [
    "Verif.CList.Props.C12_self_merge_false",
    "Verif.CList.Props.C11_merge"
   ],
   "note": "claim is false of the code for dest == src: negation proved; for distinct lists C11_merge shows termination"
  },
  {
   "property": "C120",
   "status": "proved",
   "theorems": [
    "Verif.Own.IterateProps.C120_frame",
    "Verif.Own.IterateProps.C120_iterate",
    "Verif.Own.IterateProps.C120_set_iterate",
    "Verif.Own.IterateProps.C120_remove_false",
    "Verif.Own.IterateProps.C120_update",
    "Verif.Own.IterateProps.C120_add_false"
   ],
   "note": "In the memory model of C113, with the calls of its language (Op); the callback is a function on its own data and the state, and its calls are legal in the sense of C113. C120_remove_false is the limit: a callback that removes the member it is given makes the iteration read a freed node or skip a member, for every reachable set of two members. C120_update covers callbacks that add a key the map has already; C120_add_false shows that a new member can make the tree turn under the walk, so that a member is skipped."
  },
  {
   "property": "C121",
   "status": "proved",
   "theorems": [
    "Verif.InPlace.C121_set",
    "Verif.InPlace.C121_map",
    "Verif.InPlace.C121_removed"
   ],
   "note": "The bytes of keys are not modelled; a change of them is a change from one comparison of pointers to another. For maps the equivalence is stated for maps whose values are different and not NULL, because cee_map_find gives only the value."
  },
  {
   "property": "C122",
   "status": "partial",
   "theorems": [
    "Verif.Rc.GrowProps.C122_partial",
    "Verif.Rc.GrowProps.C122_count_false",
    "Verif.Rc.GrowProps.C122_retained_false",
    "Verif.Rc.GrowProps.C122_realloc_false"
   ],
   "note": "Holds for strings that are in no container when they grow (for the default method also: without references of the program). False otherwise: the default method copies count and retained mark to a block nobody refers to, which is then never freed by counting (C122_count_false) or by no reference operation at all (C122_retained_false); with realloc the container keeps the address of the freed block and its deletion goes wrong (C122_realloc_false)."
  },
  {
   "property": "C123",
   "status": "partial",
   "theorems": [
    "Verif.Sqlite.Props.C123_partial",
    "Verif.Sqlite.Props.C123_empty_false",
    "Verif.Sqlite.Props.C123_reuse_false"
   ],
   "note": "Composition of C75, C77, C87, C82 and C83 with a database that keeps rows (Keeps: a table without constraints and conversions; memDb is one). Holds for values that fit their columns, with unused data for every insertion. False for objects without any column of the table (the statement has empty lists, C123_empty_false) and if the data of one operation are used twice (a value of the first object is stored again, C123_reuse_false); values that do not fit are the subject of C75 and C82."
  },
  {
   "property": "C124",
   "status": "partial",
   "theorems": [
    "Verif.Sqlite.Props.C124_found",
    "Verif.Sqlite.Props.C124_absent",
    "Verif.Sqlite.Props.C124_failed",
    "Verif.Sqlite.Props.C124_error_column_false",
    "Verif.Sqlite.Props.C124_bare_false"
   ],
   "note": "Holds for rows that are objects without a column named error. A row with such a column is taken for an error and its other columns are lost (C124_error_column_false); a single column without label is lost if the status is an object (C124_bare_false). The comment in cee-sqlite3.h:221-223 says that an array is returned; the code returns the row itself."
  },
  {
   "property": "C125",
   "status": "partial",
   "theorems": [
    "Verif.Json.Props.C125_compact_partial",
    "Verif.Json.Props.C125_pretty_partial",
    "Verif.Json.Props.C125_not_longer",
    "Verif.Json.Props.C125_example",
    "Verif.Json.Props.C125_inf_false",
    "Verif.Json.Props.C125_integer_false",
    "Verif.Json.Props.C125_digits_false"
   ],
   "note": "Holds for values whose doubles are printed as numbers that are read as the same double, up to the height the printer can handle; without doubles the text does not get longer. It is false for doubles: 1e999 is read, printed as inf and refused; 1.0 comes back as an integer; %lg keeps six digits. It is false for values 500 and more high by C34."
  },
  {
   "property": "C126",
   "status": "partial",
   "theorems": [
    "Verif.Json.Props.C126_rfc",
    "Verif.Json.Props.C126_undefined_false",
    "Verif.Json.Props.C126_inf_false",
    "Verif.Json.Props.C126_latin1_false"
   ],
   "note": "Holds for values without undefined, with strings and keys of Unicode text without NUL and doubles that %lg prints as numbers, including blobs and unsigned integers. The other three cases are printed as something else than JSON."
  },
  {
   "property": "C127",
   "status": "partial",
   "theorems": [
    "Verif.Rc.PolicyProps.C127_partial",
    "Verif.Rc.PolicyProps.C127_exact_iff",
    "Verif.Rc.PolicyProps.C127_index",
    "Verif.Rc.PolicyProps.C127_detach",
    "Verif.Rc.PolicyProps.C127_freed_false",
    "Verif.Rc.PolicyProps.C127_leak_false"
   ],
   "note": "The function changes the policy only, so the counts are exact afterwards exactly if the policy is the old one (C127_exact_iff). All six real changes go wrong: three free an element that is still held, three leave it in memory for ever. Proved for every program that takes the element back under the old policy first and counts it under the new one afterwards, and for the end of cee_map_remove, which frees exactly the tuple."
  },
  {
   "property": "C128",
   "status": "partial",
   "theorems": [
    "Verif.Sqlite.Props.C128_partial",
    "Verif.Sqlite.Props.C128_null_false"
   ],
   "note": "Proved for objects with a key that is not null, whose values fit the columns, each operation with unused data, starting from an empty table: refinement of a keyed table by induction over the operations. Columns marked no_update keep their first value and null does not replace a value in a not_null column. False for objects without key: storing the same object twice gives two rows, since the statement that looks for the row compares with null (C128_null_false)."
  },
  {
   "property": "C129",
   "status": "partial",
   "theorems": [
    "Verif.Sqlite.Props.C129_partial"
   ],
   "note": "Refinement of a list of rows by induction over the operations, from an empty table, for objects with a key that is not null whose values fit the columns, each operation with unused data; the result is read with cee_sqlite3_select. Columns marked no_update are left alone by updates, null does not replace a value in a not_null column. Not for objects without key: C128_null_false shows that two updates or insertions of such an object give two rows. Used data: C123_reuse_false."
  },
  {
   "property": "C13",
   "status": "proved",
   "theorems": [
    "Verif.Stack.Props.C13_stack_refines"
   ],
   "note": "capacity below 2^60 so that the block size does not wrap; malloc succeeds; NULL pushed only with policy NOOP"
  },
  {
   "property": "C130",
   "status": "partial",
   "theorems": [
    "Verif.Sqlite.Props.C130_partial",
    "Verif.Sqlite.Props.C130_same"
   ],
   "note": "C130_same: the same value, in a text that is not longer, for objects with exactly the columns of the table. C130_partial: for objects with other keys, or without some of the columns, the array of the rows (null or the zero of the type for a column without value). Each insertion has unused data; values fit the columns; no columns for blobs. The full statement is false for objects without a column of the table, for null in a not_null column (C130_partial gives the zero of the type) and for data used twice (C123_reuse_false)."
  },
  {
   "property": "C131",
   "status": "partial",
   "theorems": [
    "Verif.Rc.PrintProps.C131_partial",
    "Verif.Rc.PrintProps.C131_asprint",
    "Verif.Rc.PrintProps.C131_deep_false",
    "Verif.Rc.PrintProps.C131_blob_false",
    "Verif.Rc.PrintProps.C131_retained_false"
   ],
   "note": "C131_partial: for height below 500 and keys that are counted between 1 and 65035 times and not retained, the outcome is that of the printer of values for every buffer (also the undefined ones), and memory is as before except for one block for each blob. C131_asprint: with C33, the compact text and exactly its block, plus two for each blob. The full statement is false: each blob leaves a string (C131_blob_false), 500 or more nested arrays leave 1000 blocks (C131_deep_false), and the count of a retained key drops at each printing, so that a key is freed while its object has it (C131_retained_false)."
  },
  {
   "property": "C132",
   "status": "partial",
   "theorems": [
    "Verif.Rc.RoundProps.C132_partial",
    "Verif.Rc.RoundProps.C132_pretty_partial",
    "Verif.Rc.RoundProps.C132_text_partial"
   ],
   "note": "For documents without a key twice in an object and of height below 500 (pretty format: up to 128). The memory that the parser leaves is shown to be one that C131 prints: each key is counted at most twice and not retained, numbers and the order of keys are those of the document. C132_text_partial: from a text, and the printed text is read again, if each double is printed as a number that is read as this double. The full statement is false: C106_twice_false, C131_deep_false, C125_inf_false."
  },
  {
   "property": "C133",
   "status": "partial",
   "theorems": [
    "Verif.Rc.RoundProps.C133_save",
    "Verif.Rc.RoundProps.C133_partial"
   ],
   "note": "C133_save: for every value in memory of height below 500 the outcome is that of saving on values (C61, C108) for all answers of `write`, and only two blocks for each blob stay. C133_partial: arrays and objects without doubles and without a key twice, below height 500 (pretty: up to 128). The full statement is false: C60_load_false (a number alone in a file), C125_integer_false (doubles), C131_deep_false, C131_blob_false, C106_twice_false."
  },
  {
   "property": "C134",
   "status": "partial",
   "theorems": [
    "Verif.Rc.RoundProps.C134_partial",
    "Verif.Rc.RoundProps.C134_all_partial",
    "Verif.Rc.RoundProps.C134_mixed_partial",
    "Verif.Rc.RoundProps.C134_error_false"
   ],
   "note": "C134_partial: any list of texts of documents within the limits (text below 2^31 bytes, depth up to 511, height below 500, no key twice). C134_all_partial: such texts and texts without NUL that the parser rejects, in any order; each rejected text leaves at least one block to which nothing refers and at most 3 + 4 * N. C134_mixed_partial: exactly one for each text in which no value starts (the empty text, `]`, an unknown word, ...). The calling loop is not in /repo; it is a caller assumed by the model. The full statement is false: C134_error_false shows that each text in which no value starts leaves a block, because the parser does not delete its first tuple when it answers EINVAL (parser.c:247-260); C106_twice_false for a key twice, C131_deep_false for higher values."
  },
  {
   "property": "C135",
   "status": "proved",
   "theorems": [
    "Verif.Rc.RoundProps.C135_serve",
    "Verif.Rc.RoundProps.C135_unique",
    "Verif.Rc.ParseProps.C135_delete"
   ],
   "note": "C135_serve assumes nothing of the texts beyond the limits in the statement: which of them are documents is decided by the specification of the grammar (Spells, Syn). The calling loop is not in /repo; it is a caller assumed by the model. C135_unique: a text has one value at most, so that the response is determined. C135_delete is for any source of tokens. Nesting 499 to 511 is left out because the printer's stack is smaller than the parser's (C131_deep_false)."
  },
  {
   "property": "C136",
   "status": "proved",
   "theorems": [
    "Verif.Rc.RoundProps.C136_hold",
    "Verif.Rc.RoundProps.C136_print",
    "Verif.Rc.RoundProps.C136_delete"
   ],
   "note": "The calling loops (loadAll, printAll, delAll) are not in /repo; they are callers assumed by the model. Texts that are no documents and keys given twice lose blocks also here; how many at most is C106 and C135."
  },
  {
   "property": "C137",
   "status": "proved",
   "theorems": [
    "Verif.Rc.RoundProps.C137_session",
    "Verif.Rc.RoundProps.C137_clean",
    "Verif.Rc.RoundProps.C137_lost",
    "Verif.Rc.RoundProps.C137_bound"
   ],
   "note": "The caller (session) is not in /repo; it is assumed by the model, calls the functions of C106 and C131 and cee_del, and keeps for each text its document or nothing. Documents are not modified between the commands. C137_lost is a defect of the code (see C106): memory grows by at least a block with each text that is refused."
  },
  {
   "property": "C138",
   "status": "partial",
   "theorems": [
    "Verif.Boxed.Props.C138_order",
    "Verif.Boxed.Props.C138_equal",
    "Verif.Boxed.Props.C138_laws",
    "Verif.Boxed.Props.C138_nan_false"
   ],
   "note": "False with NaN: whatever is compared with it, in either order, the first is less, and NaN is less than itself. Proved for all other values. Not part of the model: where the functions are stored (cee_boxed_from_u64 does not store its function), and that nothing calls them (cee_cmp is declared and not defined; the functions take values where boxes would be passed). Comparison of floating point numbers is that of IEEE 754 on their bits, as defined in the model."
  },
  {
   "property": "C139",
   "status": "partial",
   "theorems": [
    "Verif.Str.Props.C139_end",
    "Verif.Str.Props.C139_append",
    "Verif.Str.Props.C139_null_false"
   ],
   "note": "False for blocks without terminator, such as those of cee_str_strn: the comment of the function (str.c:166-168) promises NULL, but bytes are read that are uninitialised or behind the block. Proved for all others. Appending with cee_str_add is C24. Appended texts are below 2^31 bytes and do not alias the string."
  },
  {
   "property": "C14",
   "status": "proved",
   "theorems": [
    "Verif.Hash.Props.C14_dict_first_write_wins"
   ],
   "note": "fewer than 2^31 additions (private lists use int indices), non-NULL values, float computation of the initial table size replaced by an arbitrary number"
  },
  {
   "property": "C15",
   "status": "proved",
   "theorems": [
    "Verif.Hash.Props.C15_probe_terminates"
   ],
   "note": "every pattern of allocation failures"
  },
  {
   "property": "C16",
   "status": "proved",
   "theorems": [
    "Verif.Chain.Props.C16_state_delete"
   ],
   "note": "address-level model of the chain; allocator is an oracle"
  },
  {
   "property": "C17",
   "status": "partial",
   "theorems": [
    "Verif.Chain.Props.C17_forward_false",
    "Verif.Chain.Props.C17_forward_partial"
   ],
   "note": "claim is false of the code after a resize of a block that is not the last; the partial theorem characterises exactly when it holds"
  },
  {
   "property": "C18",
   "status": "proved",
   "theorems": [
    "Verif.Gc.Props.C18_gc"
   ],
   "note": "Over all histories of rounds from cee_state_mk; hypotheses at each collection: chain walkable (C17) and the graph below the state live, self-marking and acyclic."
  },
  {
   "property": "C19",
   "status": "partial",
   "theorems": [
    "Verif.Gc.Props.C19_private_parts_partial",
    "Verif.Gc.Props.C19_private_parts_false",
    "Verif.Gc.Props.C19_closure_false"
   ],
   "note": "The claim is false: the first gc frees insertion_ordered_keys of every live map (even the state's own contexts map) and rooted closures; proved for the container kinds that mark all they hold."
  },
  {
   "property": "C20",
   "status": "partial",
   "theorems": [
    "Verif.Gc.Props.C20_terminates_partial",
    "Verif.Gc.Props.C20_cyclic_never_finishes",
    "Verif.Gc.Props.C20_terminates_false"
   ],
   "note": "False for cyclic graphs (general theorem: any cycle below the state makes marking recurse without bound); proved for acyclic graphs."
  },
  {
   "property": "C21",
   "status": "proved",
   "theorems": [
    "Verif.Rc.Props.C21_refcounting",
    "Verif.Rc.Props.C21_del_ref_exact"
   ],
   "note": "for every history of makes, appends, removals, extra references and deletions that never creates 65536 references to one block or two owners"
  },
  {
   "property": "C22",
   "status": "partial",
   "theorems": [
    "Verif.Rc.Props.C22_references_lost_partial",
    "Verif.Rc.Props.C22_references_lost_false"
   ],
   "note": "true for fewer than 65536 holders, false for 65536*j+1 (in_degree is 16 bits wide)"
  },
  {
   "property": "C23",
   "status": "proved",
   "theorems": [
    "Verif.Rc.Props.C23_retained",
    "Verif.Rc.Props.C23_retained_by_program"
   ],
   "note": "for arbitrary memory states, no invariant assumed"
  },
  {
   "property": "C24",
   "status": "partial",
   "theorems": [
    "Verif.Str.Props.C24_append",
    "Verif.Str.Props.C24_add_realloc_false",
    "Verif.Str.Props.C24_add_4gib_false",
    "Verif.Str.Props.C24_strn_false"
   ],
   "note": "all histories of cee_str_add/catf/replace/use_malloc/use_realloc under the stated conditions; refuted for cee_str_add after cee_use_realloc, from 4 GiB on, and for strings made by cee_str_strn; length <= capacity (not <)"
  },
  {
   "property": "C25",
   "status": "partial",
   "theorems": [
    "Verif.Str.Props.C25_rtrim_exact",
    "Verif.Str.Props.C25_rtrim_partial",
    "Verif.Str.Props.C25_rtrim_false",
    "Verif.Str.Props.C25_ltrim_exact",
    "Verif.Str.Props.C25_ltrim_partial",
    "Verif.Str.Props.C25_ltrim_false"
   ],
   "note": "exact behaviour of both functions for every string; the documented claim is false for blank strings (rtrim) and for every string with leading white space (ltrim)"
  },
  {
   "property": "C26",
   "status": "proved",
   "theorems": [
    "Verif.Str.Props.C26_replace_at_offset",
    "Verif.Str.Props.C26_out_of_range"
   ],
   "note": "including that the range condition is necessary"
  },
  {
   "property": "C27",
   "status": "partial",
   "theorems": [
    "Verif.Str.Props.C27_replace_all",
    "Verif.Str.Props.C27_memory_safety_false",
    "Verif.Str.Props.C27_empty_old"
   ],
   "note": "exact characterisation of the inputs on which the function is correct and of those on which it overruns its buffer"
  },
  {
   "property": "C28",
   "status": "proved",
   "theorems": [
    "Verif.Strview.Props.C28_trim_left",
    "Verif.Strview.Props.C28_trim_right",
    "Verif.Strview.Props.C28_trim",
    "Verif.Strview.Props.C28_chop_left",
    "Verif.Strview.Props.C28_chop_right",
    "Verif.Strview.Props.C28_index_of",
    "Verif.Strview.Props.C28_chop_by_delim",
    "Verif.Strview.Props.C28_try_chop_by_delim",
    "Verif.Strview.Props.C28_eq",
    "Verif.Strview.Props.C28_starts_with",
    "Verif.Strview.Props.C28_ends_with",
    "Verif.Strview.Props.C28_eq_ignorecase",
    "Verif.Strview.Props.C28_to_u64",
    "Verif.Strview.Props.C28_chop_u64",
    "Verif.Strview.Props.C28_take_left_while",
    "Verif.Strview.Props.C28_chop_left_while"
   ],
   "note": "Views are (array, offset, count) with checked reads; each operation is characterised by the text it returns and the text it leaves, and both views lie inside the original one.  to_u64 wraps modulo 2^64.  isspace/isdigit as in the C locale."
  },
  {
   "property": "C29",
   "status": "partial",
   "theorems": [
    "Verif.Strview.Props.C29_split_partial",
    "Verif.Strview.Props.C29_split_false",
    "Verif.Strview.Props.C29_long_delim_false"
   ],
   "note": "False when the first occurrence is at the very end of the text (the delimiter is returned with the text) and when the delimiter is longer than the text (pointer past the array, or a wrapped count). Proved otherwise."
  },
  {
   "property": "C30",
   "status": "proved",
   "theorems": [
    "Verif.Json.Props.C30_roundtrip",
    "Verif.Json.Props.C30_encode_is_utf8",
    "Verif.Json.Props.C30_decode_exact",
    "Verif.Json.Props.C30_validate_exact",
    "Verif.Json.Props.C30_surrogates",
    "Verif.Json.Props.C30_html"
   ],
   "note": "encode is compared with the core library's String.utf8EncodeChar; utf8_validate accepts exactly the images of lists of Char."
  },
  {
   "property": "C31",
   "status": "proved",
   "theorems": [
    "Verif.Json.Props.C31_fits",
    "Verif.Json.Props.C31_control_refused",
    "Verif.Json.Props.C31_decode_exact",
    "Verif.Json.Props.C31_decode_plain",
    "Verif.Json.Props.C31_parse_string_safe",
    "Verif.Json.Props.C31_roundtrip"
   ],
   "note": "Bodies of 2^31 bytes or more are left out of the round trip and of safety (the precision of %.*s is an int). What is accepted beyond RFC 8259 is in C56."
  },
  {
   "property": "C32",
   "status": "proved",
   "theorems": [
    "Verif.Json.Props.C32_compact",
    "Verif.Json.Props.C32_pretty",
    "Verif.Json.Props.C32_caller_buffer"
   ],
   "note": "Checked output cells; both passes are run on the same model of the loop. Compact: every value. Pretty: up to 127 containers around an atom; beyond that see C58."
  },
  {
   "property": "C33",
   "status": "proved",
   "theorems": [
    "Verif.Json.Props.C33_compact",
    "Verif.Json.Props.C33_pretty",
    "Verif.Json.Props.C33_no_nul",
    "Verif.Json.Props.C33_dprintf"
   ],
   "note": "compact is the recursive definition with keys in insertion order; strings and keys shorter than 2^32 (the length parameter of str_append is unsigned int). Doubles are printed by a parameter (Libc.lg). C33_dprintf: what cee_json_dprintf writes to a descriptor."
  },
  {
   "property": "C34",
   "status": "partial",
   "theorems": [
    "Verif.Json.Props.C34_truncated",
    "Verif.Json.Props.C34_not_stable",
    "Verif.Json.Props.C33_compact",
    "Verif.Json.Props.C34_dprintf"
   ],
   "note": "False: from 500 nested values on the loop leaves because the stack is full, and only the opening brackets are returned, without an error; for 500..511 nested arrays the parser accepts the text, and what is printed for the value is refused by the parser. C33_compact is the part that holds (nesting below 500). cee_json_dprintf loses the same data (C34_dprintf)."
  },
  {
   "property": "C35",
   "status": "proved",
   "theorems": [
    "Verif.Json.Props.C35_parse",
    "Verif.Json.Props.C35_roundtrip",
    "Verif.Json.Props.C35_roundtrip_pretty"
   ],
   "note": "Printer, tokenizer and parser composed; the printer output is text ++ NUL and the parser is run on exactly that memory. Keys of one object must be different (objects are maps). Strings shorter than 2^31 bytes. C35_roundtrip_pretty: same for the pretty format up to 128 levels."
  },
  {
   "property": "C36",
   "status": "proved",
   "theorems": [
    "Verif.Json.Props.C36_token",
    "Verif.Json.Props.C36_ends",
    "Verif.Json.Props.C36_too_deep",
    "Verif.Json.Props.C36_stack"
   ],
   "note": "C36_token: each token ends at a later position, inside the text plus its NUL, left decreases by what was read. C36_ends: fuel text.length + 1 is enough for every text. C36_stack: no reachable parser state pops an empty or pushes on a full stack. C36_too_deep: a value deeper than 511 is never returned."
  },
  {
   "property": "C37",
   "status": "proved",
   "theorems": [
    "Verif.Json.Props.C37_accepts",
    "Verif.Json.Props.C37_accepts_eof",
    "Verif.Json.Props.C37_rejects",
    "Verif.Json.Props.C37_too_deep",
    "Verif.Json.Props.C37_duplicates",
    "Verif.Json.Props.prun_list_total"
   ],
   "note": "Grammar given as the inductive type Syn with toks and val. Accepts: every token list of the grammar up to the bound; rejects: a successful run read the tokens of some Syn and returned its value. C37_duplicates: of several equal keys the last value counts. Token sequences; C36/C35 connect them to text."
  },
  {
   "property": "C38",
   "status": "partial",
   "theorems": [
    "Verif.Json.Props.C38_trailing_comma_false",
    "Verif.Json.Props.C38_leading_zero_false",
    "Verif.Json.Props.C38_partial"
   ],
   "note": "False: every array with a trailing comma is accepted, and every number with leading zeros and a fraction. C38_partial: plain integers with leading zeros are refused."
  },
  {
   "property": "C39",
   "status": "proved",
   "theorems": [
    "Verif.Json.Props.C39_has",
    "Verif.Json.Props.C39_exists"
   ],
   "note": "Heap of nodes with cee_map search trees; Reps relates a node to a value. fewer than 2^31 nodes (int counter of cee_list_iterate). C39_exists: every value with different keys is represented by some heap."
  },
  {
   "property": "C40",
   "status": "proved",
   "theorems": [
    "Verif.Json.Props.C40_merge",
    "Verif.Json.Props.C40_meaning",
    "Verif.Json.Props.C40_exists",
    "Verif.Json.Props.C40_again"
   ],
   "note": "Destination is an unshared tree and the source has none of its nodes (\"distinct trees\"); then destination represents mergeVal, and the source is unchanged. C40_meaning describes mergeVal by lookups and concatenation. C40_exists: such heaps exist for every pair of values. C40_again: merging unshared trees leaves the destination unshared, so that merging can be repeated."
  },
  {
   "property": "C41",
   "status": "proved",
   "theorems": [
    "Verif.Json.Props.C41_select",
    "Verif.Json.Props.C41_index",
    "Verif.Json.Props.C41_check",
    "Verif.Json.Props.C41_types"
   ],
   "note": "Paths of .key, [index], [*] with any further text arguments, and a final type check; following a path is defined on its own (follow). The NUL is the last byte of the text in the model, reading on would be ub. Paths that end in a bare selector: C67; \".*\": C66. C41_index: an index in any form atoi reads; one that is no int is undefined behaviour of atoi."
  },
  {
   "property": "C42",
   "status": "proved",
   "theorems": [
    "Verif.Json.Props.C42_get",
    "Verif.Json.Props.C42_remove"
   ],
   "note": "Lists reachable by any history of fewer than 2^31 list operations, every int index."
  },
  {
   "property": "C43",
   "status": "proved",
   "theorems": [
    "Verif.Boxed.Props.C43_roundtrip"
   ],
   "note": "All ten constructors and all ten readers, the union as bytes; floating point numbers as bit patterns."
  },
  {
   "property": "C44",
   "status": "partial",
   "theorems": [
    "Verif.Env.Props.C44_novars_false",
    "Verif.Env.Props.C44_null_false",
    "Verif.Env.Props.C44_partial"
   ],
   "note": "False: an environment with NULL vars hides the outer ones, and a binding to NULL does not hide them. C44_partial: every chain of environments that have a map, for bindings to something; maps reachable by any history of fewer than 2^31 operations."
  },
  {
   "property": "C45",
   "status": "partial",
   "theorems": [
    "Verif.Json.Props.C45_never_false",
    "Verif.Json.Props.C45_missing_false",
    "Verif.Json.Props.C45_partial"
   ],
   "note": "False: no string is ever converted, and a missing key is UB. C45_partial: true is returned exactly for a value that is an integer already and nothing is changed."
  },
  {
   "property": "C46",
   "status": "partial",
   "theorems": [
    "Verif.Json.Props.C46_overflow_false",
    "Verif.Json.Props.C46_control_false",
    "Verif.Json.Props.C46_partial",
    "Verif.Json.Props.C46_text",
    "Verif.Json.Props.C46_last"
   ],
   "note": "False: every escape that does not fit overruns the buffer; control characters without a short escape give four of the six bytes. C46_partial: right, and no write outside, when the escape fits and no such control character occurs. C46_text: for every text, given three bytes to spare, the counted text is known, and all control characters without a letter become the same four characters. C46_last: a single one at the end is written in full, but two characters are not counted."
  },
  {
   "property": "C47",
   "status": "partial",
   "theorems": [
    "Verif.Sqlite.Props.C47_general",
    "Verif.Sqlite.Props.C47_partial",
    "Verif.Sqlite.Props.C47_total",
    "Verif.Sqlite.Props.C47_twice_false"
   ],
   "note": "Precedence holds as stated. \"At most once\" is false for a table with two rows of one name (C47_twice_false); C47_general says what is bound then: the value of every such row in turn. SQLite is a log of calls; names have one index."
  },
  {
   "property": "C48",
   "status": "partial",
   "theorems": [
    "Verif.Search.Props.C48_lfind",
    "Verif.Search.Props.C48_lsearch_found",
    "Verif.Search.Props.C48_lsearch_false",
    "Verif.Search.Props.C48_lsearch_partial",
    "Verif.Search.Props.C48_insque",
    "Verif.Search.Props.C48_insque_null",
    "Verif.Search.Props.C48_remque",
    "Verif.Search.Props.C48_insque_list",
    "Verif.Search.Props.C48_remque_list"
   ],
   "note": "Everything but the append of musl_lsearch holds as stated. musl_lsearch copies an absent key to where the next cell points instead of storing it: UB for a cell not set (C48_lsearch_false). C48_lsearch_partial: right when the next cell already points to room."
  },
  {
   "property": "C49",
   "status": "partial",
   "theorems": [
    "Verif.Rc.Props.C49_tuple_mk",
    "Verif.Rc.Props.C49_n_tuple",
    "Verif.Rc.Props.C49_null_argument",
    "Verif.Rc.Props.C49_mk_delete",
    "Verif.Rc.Props.C49_retained_argument_false"
   ],
   "note": "construction exact for every policy vector; deletion exact unless an argument is retained (then a reference is dropped that was never taken, refuted)"
  },
  {
   "property": "C50",
   "status": "partial",
   "theorems": [
    "Verif.Dbm.Props.C50_partial",
    "Verif.Dbm.Props.C50_total",
    "Verif.Dbm.Props.C50_long_false",
    "Verif.Dbm.Props.C50_restored_false",
    "Verif.Dbm.Props.C50_emptied"
   ],
   "note": "Names of 128 bytes and more are cut, so scripts that exist are not run (C50_long_false); the migration script is chosen by the version before the restoration (C50_restored_false); without a creation script a database that shall be made anew is emptied (C50_emptied). C50_partial: exactly which scripts are run, in which order, what the content is; C50_total: no failure if no script fails. The log database and directories are left out."
  },
  {
   "property": "C51",
   "status": "partial",
   "theorems": [
    "Verif.Set.Props.C51_set_delete_false"
   ],
   "note": "False of the code: deletion is defined exactly for the empty set."
  },
  {
   "property": "C52",
   "status": "partial",
   "theorems": [
    "Verif.CList.Props.C52_iterate_empty_false"
   ],
   "note": "claim is false of the code: the uninitialised variable ret is returned"
  },
  {
   "property": "C53",
   "status": "proved",
   "theorems": [
    "Verif.Hash.Props.C53_enter_failure_atomic"
   ],
   "note": ""
  },
  {
   "property": "C54",
   "status": "partial",
   "theorems": [
    "Verif.Str.Props.C54_mk_e_no_format",
    "Verif.Str.Props.C54_mk_e_size_false"
   ],
   "note": "true without a format, false with one (n is ignored)"
  },
  {
   "property": "C55",
   "status": "partial",
   "theorems": [
    "Verif.Str.Props.C55_replace_all_ext",
    "Verif.Str.Props.C55_safe",
    "Verif.Str.Props.C55_memory_safety_false",
    "Verif.Str.Props.C55_delete_false"
   ],
   "note": "exact characterisation, a sufficient condition, and two refutations"
  },
  {
   "property": "C56",
   "status": "partial",
   "theorems": [
    "Verif.Json.Props.C31_lone_surrogate_false",
    "Verif.Json.Props.C31_invalid_utf8_false",
    "Verif.Json.Props.C31_nul_false",
    "Verif.Json.Props.C31_decode_exact",
    "Verif.Json.Props.C31_decode_plain"
   ],
   "note": "False: a lone high surrogate at the end is dropped silently, literals without escapes are not checked for UTF-8, and text after an escaped NUL is lost. C31_decode_exact and C31_decode_plain say exactly what is accepted."
  },
  {
   "property": "C57",
   "status": "partial",
   "theorems": [
    "Verif.Json.Props.C57_size_ignored_false",
    "Verif.Json.Props.C32_caller_buffer"
   ],
   "note": "False: the parameter size is never read. What holds: a buffer of one byte more than the first pass returned is never overrun."
  },
  {
   "property": "C58",
   "status": "partial",
   "theorems": [
    "Verif.Json.Props.C58_pretty_deep_false",
    "Verif.Json.Props.C33_pretty"
   ],
   "note": "False from 129 nested values on: tabs is a signed char, becomes negative and moves the offset backwards over written text. C33_pretty proves it up to 128."
  },
  {
   "property": "C59",
   "status": "partial",
   "theorems": [
    "Verif.Json.Props.C59_clamped_false",
    "Verif.Json.Props.C59_u64_false",
    "Verif.Json.Props.C59_partial"
   ],
   "note": "False: every integer of 2^63 or more is read as 2^63 - 1 without an error, hence unsigned values of 2^63 or more are not preserved. C59_partial: exact within 64 bits signed."
  },
  {
   "property": "C60",
   "status": "partial",
   "theorems": [
    "Verif.Json.Props.C60_overread_false",
    "Verif.Json.Props.C60_load_false",
    "Verif.Json.Props.C60_beyond_false",
    "Verif.Json.Props.C60_partial"
   ],
   "note": "False: a number at the end of the buffer is read past it; load_from_fileno allocates no NUL. C60_partial: with a NUL at buf[len] nothing beyond it is read."
  },
  {
   "property": "C61",
   "status": "partial",
   "theorems": [
    "Verif.Json.Props.C61_save_load",
    "Verif.Json.Props.C61_number_false"
   ],
   "note": "Holds for every array and object; false for numbers at top level, which are read past the end of the block. System calls are assumed to succeed and transfer everything here; C108 is about those that do not."
  },
  {
   "property": "C62",
   "status": "partial",
   "theorems": [
    "Verif.Json.Props.C62_false",
    "Verif.Json.Props.C62_partial"
   ],
   "note": "False: {} merged with {\"a\":{}} and then {\"a\":{\"b\":null}} changes the first source. C62_partial: holds for arrays merged into an array, any number of them."
  },
  {
   "property": "C63",
   "status": "partial",
   "theorems": [
    "Verif.Json.Props.C63_false",
    "Verif.Json.Props.C63_partial"
   ],
   "note": "False: in {\"a\":{\"k\":true},\"k\":false} the inner value is found. C63_partial: the own key is found if no value below has the key."
  },
  {
   "property": "C64",
   "status": "partial",
   "theorems": [
    "Verif.Json.Props.C64_self_false",
    "Verif.Json.Props.C64_partial"
   ],
   "note": "False for every nonempty array: no number of turns is enough. C64_partial: two different arrays are concatenated."
  },
  {
   "property": "C65",
   "status": "partial",
   "theorems": [
    "Verif.Json.Props.C65_append_false",
    "Verif.Json.Props.C65_partial"
   ],
   "note": "False: old value an object is UB (cee_get_state(NULL)), a number, truth value or null a segfault. C65_partial: absent key, array and string."
  },
  {
   "property": "C66",
   "status": "partial",
   "theorems": [
    "Verif.Json.Props.C66_star_false",
    "Verif.Json.Props.C41_select"
   ],
   "note": "False for every nonempty name that fits. What holds: keys written in the path itself (C41_select)."
  },
  {
   "property": "C67",
   "status": "partial",
   "theorems": [
    "Verif.Json.Props.C67_overread_false",
    "Verif.Json.Props.C41_select",
    "Verif.Json.Props.C41_check"
   ],
   "note": "False for paths ending in a selector character after a part that is found. Holds for the paths of C41."
  },
  {
   "property": "C68",
   "status": "partial",
   "theorems": [
    "Verif.Json.Props.C68_number_false",
    "Verif.Json.Props.C68_partial"
   ],
   "note": "False: doubles and unsigned numbers are refused. C68_partial: accepts exactly the signed integers."
  },
  {
   "property": "C69",
   "status": "partial",
   "theorems": [
    "Verif.Json.Props.C69_int_false",
    "Verif.Json.Props.C69_partial",
    "Verif.Json.Props.C69_select_partial"
   ],
   "note": "False: 2^32+5 is given as 5. C69_partial: exact for every number that is an int; the result is always congruent mod 2^32; nothing but signed integers is accepted."
  },
  {
   "property": "C70",
   "status": "partial",
   "theorems": [
    "Verif.Json.Props.C70_insert_false",
    "Verif.Json.Props.C70_partial"
   ],
   "note": "False for every index below 0 or above the size. C70_partial: 0..size."
  },
  {
   "property": "C71",
   "status": "proved",
   "theorems": [
    "Verif.Boxed.Props.C71_snprint",
    "Verif.Boxed.Props.C71_float"
   ],
   "note": "Decimal representation is that of Lean (Int.repr). The text of floating point numbers is a parameter."
  },
  {
   "property": "C72",
   "status": "partial",
   "theorems": [
    "Verif.Sqlite.Props.C72_partial",
    "Verif.Sqlite.Props.C72_reported",
    "Verif.Sqlite.Props.C72_false"
   ],
   "note": "False: a parameter that is named in the table counts as bound although it got no value. C72_partial: run iff every parameter is named in the table, else the error names the first that is not."
  },
  {
   "property": "C73",
   "status": "partial",
   "theorems": [
    "Verif.Sqlite.Props.C73_partial",
    "Verif.Sqlite.Props.C73_false"
   ],
   "note": "False: the statement is not finalized when a parameter is not in the table. C73_partial: finalized once after it was run, never otherwise."
  },
  {
   "property": "C74",
   "status": "proved",
   "theorems": [
    "Verif.Sqlite.Props.C74_kind",
    "Verif.Sqlite.Props.C74_other",
    "Verif.Sqlite.Props.C74_words"
   ],
   "note": "isspace and case folding of the C locale."
  },
  {
   "property": "C75",
   "status": "partial",
   "theorems": [
    "Verif.Sqlite.Props.C75_partial",
    "Verif.Sqlite.Props.C75_bound",
    "Verif.Sqlite.Props.C75_error_stops",
    "Verif.Sqlite.Props.C75_stale_false",
    "Verif.Sqlite.Props.C75_wrap_false",
    "Verif.Sqlite.Props.C75_text_false",
    "Verif.Sqlite.Props.C75_blob_false",
    "Verif.Sqlite.Props.C75_call",
    "Verif.Sqlite.Props.C75_silent_false"
   ],
   "note": "False: NULL stays bound once an object had null for a column, numbers are cut to int without an error, a number for a text column goes through a NULL pointer, as does any value for a blob column without a place for errors. C75_partial, C75_bound: unused data, values that fit, one row per column. C75_call: the function with its arrays of names. C75_silent_false: without an array for errors a value of a wrong type in front hides all others, and 0 is returned in any case."
  },
  {
   "property": "C76",
   "status": "partial",
   "theorems": [
    "Verif.Sqlite.Props.C76_partial",
    "Verif.Sqlite.Props.C76_single",
    "Verif.Sqlite.Props.C76_nulls",
    "Verif.Sqlite.Props.C76_false"
   ],
   "note": "False for two keys: the first key that is not null fills all rows. C76_partial says what the table is for every object of numbers, texts and nulls; C76_single: right for one key."
  },
  {
   "property": "C77",
   "status": "proved",
   "theorems": [
    "Verif.Sqlite.Props.C77_compose",
    "Verif.Sqlite.Props.C77_bound"
   ],
   "note": "Column names are not empty. cee_str_catf is taken as append."
  },
  {
   "property": "C78",
   "status": "partial",
   "theorems": [
    "Verif.Sqlite.Props.C78_partial",
    "Verif.Sqlite.Props.C78_bound",
    "Verif.Sqlite.Props.C78_false"
   ],
   "note": "False for 50 or more values that are not null: the array of 50 rows is overrun, for every such object (C78_false). Right for up to 49. The parameters SQLite finds in the text are a hypothesis of C78_bound."
  },
  {
   "property": "C79",
   "status": "partial",
   "theorems": [
    "Verif.Dbm.Props.C79_partial",
    "Verif.Dbm.Props.C79_none",
    "Verif.Dbm.Props.C79_normalize",
    "Verif.Dbm.Props.C79_long_false",
    "Verif.Dbm.Props.C79_middle_false"
   ],
   "note": "False: results of 128 bytes overrun the array for every such path (C79_long_false), and $HOME in the middle cuts off the first five bytes instead."
  },
  {
   "property": "C80",
   "status": "partial",
   "theorems": [
    "Verif.Dbm.Props.C80_partial",
    "Verif.Dbm.Props.C80_texts",
    "Verif.Dbm.Props.C80_false"
   ],
   "note": "False for every description of which a text that is not the last goes beyond the buffer: the size wraps around and the next text is written outside (C80_false)."
  },
  {
   "property": "C81",
   "status": "partial",
   "theorems": [
    "Verif.Dbm.Props.C81_partial",
    "Verif.Dbm.Props.C81_missing",
    "Verif.Dbm.Props.C81_failed_false",
    "Verif.Dbm.Props.C81_long_false"
   ],
   "note": "False: true is returned although the command failed, and long commands are cut."
  },
  {
   "property": "C82",
   "status": "partial",
   "theorems": [
    "Verif.Sqlite.Props.C82_row",
    "Verif.Sqlite.Props.C82_bare",
    "Verif.Sqlite.Props.C82_kinds",
    "Verif.Sqlite.Props.C82_value",
    "Verif.Sqlite.Props.C82_text_false"
   ],
   "note": "C82_row: the object of a row, for every table and row; C82_bare: a single column that is returned as a bare value; C82_value: different values stay different. False for texts with NUL bytes, which are cut (C82_text_false)."
  },
  {
   "property": "C83",
   "status": "partial",
   "theorems": [
    "Verif.Sqlite.Props.C83_partial",
    "Verif.Sqlite.Props.C83_object_segv",
    "Verif.Sqlite.Props.C83_hang_false",
    "Verif.Sqlite.Props.C83_failed",
    "Verif.Sqlite.Props.C83_array_false",
    "Verif.Sqlite.Props.C83_left_false"
   ],
   "note": "False: a status that is not an array crashes; a statement that fails after a first row is stepped for ever (C83_hang_false); a failure is lost if the status is an array; a failing first step leaves the statement behind (C83_left_false)."
  },
  {
   "property": "C84",
   "status": "partial",
   "theorems": [
    "Verif.Sqlite.Props.C84_rows",
    "Verif.Sqlite.Props.C84_failed"
   ],
   "note": "C84_rows: what the status is, for every result without failure. C84_failed: errors are reported, but a status with an error that is not a text crashes."
  },
  {
   "property": "C85",
   "status": "partial",
   "theorems": [
    "Verif.Sqlite.Props.C85_row",
    "Verif.Sqlite.Props.C85_absent",
    "Verif.Sqlite.Props.C85_failed_false"
   ],
   "note": "False if the selection fails: the insertion is run (C85_failed_false)."
  },
  {
   "property": "C86",
   "status": "partial",
   "theorems": [
    "Verif.Sqlite.Props.C86_insert",
    "Verif.Sqlite.Props.C86_delete",
    "Verif.Sqlite.Props.C86_update",
    "Verif.Sqlite.Props.C86_update_false"
   ],
   "note": "False for updates of which the selection gives no row or fails when it is run: nothing is reported (C86_update_false)."
  },
  {
   "property": "C87",
   "status": "partial",
   "theorems": [
    "Verif.Sqlite.Props.C87_insert",
    "Verif.Sqlite.Props.C87_update",
    "Verif.Sqlite.Props.C87_update_or_insert",
    "Verif.Sqlite.Props.C87_update_nothing",
    "Verif.Sqlite.Props.C87_select_false",
    "Verif.Sqlite.Props.C87_insert_null_false",
    "Verif.Sqlite.Props.C87_error_false",
    "Verif.Sqlite.Props.C87_lost_false",
    "Verif.Sqlite.Props.C87_report"
   ],
   "note": "C87_insert: the whole insertion of an object, from its values to the parameters of the composed statement, the error and the id. C87_update, C87_update_or_insert, C87_update_nothing: the same for updates: the selection with the values of the object decides, the template is filled with the columns of the object that may change, and the statement is run with the values; that the parameters of the statements are variables of the table is a hypothesis (Knows), and the values fit (Fits). A selection that fails counts as one that finds no row, so the insertion is then run: the theorem says so. False: a selection with a place for the result never succeeds (C87_select_false); an insertion without a place for the result inserts the row and then dereferences NULL (C87_insert_null_false); with a value of a wrong type the statement is run without it (C87_error_false), and an error of the database is then overwritten (C87_lost_false). C87_report: what the status says under debug about keys and statements."
  },
  {
   "property": "C88",
   "status": "partial",
   "theorems": [
    "Verif.Sqlite.Props.C88_rows",
    "Verif.Sqlite.Props.C88_null_false",
    "Verif.Sqlite.Props.C88_failed",
    "Verif.Sqlite.Props.C88_one",
    "Verif.Sqlite.Props.C88_absent_false",
    "Verif.Sqlite.Props.C88_one_failed_false"
   ],
   "note": "C88_rows, C88_one: the result under the key, everything else unchanged. False without a status or without a row or if the selection of one row fails."
  },
  {
   "property": "C89",
   "status": "partial",
   "theorems": [
    "Verif.Sqlite.Props.C89_partial",
    "Verif.Sqlite.Props.C89_int_false",
    "Verif.Sqlite.Props.C89_failed",
    "Verif.Sqlite.Props.C89_long_false"
   ],
   "note": "C89_partial: for numbers below 2^31 and short clauses. False for larger numbers (C89_int_false) and for clauses that do not fit into the buffer of 128 bytes (C89_long_false)."
  },
  {
   "property": "C90",
   "status": "partial",
   "theorems": [
    "Verif.Sqlite.Props.C90_array",
    "Verif.Sqlite.Props.C90_object",
    "Verif.Sqlite.Props.C90_object_array",
    "Verif.Sqlite.Props.C90_bound",
    "Verif.Sqlite.Props.C90_int64_false",
    "Verif.Sqlite.Props.C90_null_false",
    "Verif.Sqlite.Props.C90_size_false",
    "Verif.Sqlite.Props.C90_missing_false",
    "Verif.Sqlite.Props.C90_failed_false"
   ],
   "note": "C90_array, C90_bound: for columns of type INT and TEXT, by induction over the array. False for columns of type INT64 (the value is written to the wrong member), for data marked NULL or with a size (kept from before), and after an object without the key or a failing selection the remaining objects are not joined. C90_object: the same for an object by itself; C90_object_array: which is the same as the array of this object, in every case."
  },
  {
   "property": "C91",
   "status": "partial",
   "theorems": [
    "Verif.Str.Props.C91_mk_partial",
    "Verif.Str.Props.C91_mk_false",
    "Verif.Str.Props.C91_others"
   ],
   "note": "False for cee_str_mk and cee_str_mkv with every format that takes an argument: both calls of vsnprintf get the same va_list, the copy is not used (C91_mk_false). Right for formats without arguments, and for cee_str_mk_e, cee_str_catf and cee_str_replace."
  },
  {
   "property": "C92",
   "status": "proved",
   "theorems": [
    "Verif.Json.Props.C92_accepts_iff",
    "Verif.Json.Props.C92_rejects",
    "Verif.Json.Props.C92_prefix",
    "Verif.Json.Props.C92_rfc",
    "Verif.Json.Props.C92_one_value",
    "Verif.Json.Props.C92_beyond_rfc_false",
    "Verif.Json.Props.C92_not_rfc"
   ],
   "note": "An exact characterisation, both ways. RFC 8259 alone is not the language: C92_beyond_rfc_false gives three texts that are accepted though they are no JSON ([1,] and 00.5 and a string of the byte 255). A // comment is only the end of the input when a NUL byte comes before buf_end, so in texts without NUL comments are errors."
  },
  {
   "property": "C93",
   "status": "partial",
   "theorems": [
    "Verif.Rc.EnvProps.C93_partial",
    "Verif.Rc.EnvProps.C93_closure",
    "Verif.Rc.EnvProps.C93_shared_outer_false",
    "Verif.Rc.EnvProps.C93_outer_first_false",
    "Verif.Rc.EnvProps.C93_closure_false"
   ],
   "note": "False as stated: cee_env_mk takes over the reference of the outer environment without counting it, so two environments over one outer one free it twice, and a closure does not count its environment. Proved: an unshared chain of any length is freed exactly once and nothing else changes; deleting a closure frees only the closure."
  },
  {
   "property": "C94",
   "status": "proved",
   "theorems": [
    "Verif.Json.BuildProps.C94_refines",
    "Verif.Json.BuildProps.C94_set_get"
   ],
   "note": "Heap of JSON nodes with the AVL maps of map.c underneath. Reference counts are not in this model, so a removed value stays in memory."
  },
  {
   "property": "C95",
   "status": "proved",
   "theorems": [
    "Verif.Json.BuildProps.C95_bool"
   ],
   "note": ""
  },
  {
   "property": "C96",
   "status": "partial",
   "theorems": [
    "Verif.Json.Props.C96_partial",
    "Verif.Json.Props.C96_input_error",
    "Verif.Json.Props.C96_output_error",
    "Verif.Json.Props.C96_write_false",
    "Verif.Json.Props.C96_truncated_false",
    "Verif.Json.Props.C96_ignored_false"
   ],
   "note": "False as stated: a failing write is ignored and 0 returned, a first file that holds no object crashes after merged was emptied, further files without an object are silently ignored. Proved: with objects and a successful write the result loads to the merge (C40) of all files plus the names, up to the order of keys; missing or refused inputs return 1 with merged untouched, for any number and position of the bad file."
  },
  {
   "property": "C97",
   "status": "partial",
   "theorems": [
    "Verif.Dbm.Props.C97_partial",
    "Verif.Dbm.Props.C97_sound",
    "Verif.Dbm.Props.C97_null",
    "Verif.Dbm.Props.C97_file_false",
    "Verif.Dbm.Props.C97_dot_false",
    "Verif.Dbm.Props.C97_denied_false"
   ],
   "note": "False as stated: 0 for a path that leads to a file; a crash for missing paths that end in /. or /.. (after making everything) and whenever a directory cannot be made. Proved: for paths of names with any slashes the claim holds when no file is in the way; for every path only directories are added, the result is 0 or a crash, and with 0 the path leads to something."
  },
  {
   "property": "C98",
   "status": "partial",
   "theorems": [
    "Verif.Dbm.Props.C98_partial",
    "Verif.Dbm.Props.C98_plain",
    "Verif.Dbm.Props.C98_lost_false",
    "Verif.Dbm.Props.C98_leak_false",
    "Verif.Dbm.Props.C98_open_false",
    "Verif.Dbm.Props.C98_silent_false"
   ],
   "note": "False as stated: after a failing statement the connection of the caller is replaced by NULL with the transaction still open, a connection opened for it is never closed, a failing open is undefined behaviour (db_p NULL) or goes unreported. Proved: with a transaction the disk holds the whole effect exactly if the function returns, and otherwise the old content; without one the effect of the statements before the failing one."
  },
  {
   "property": "C99",
   "status": "partial",
   "theorems": [
    "Verif.Dbm.Props.C99_partial",
    "Verif.Dbm.Props.C99_attach",
    "Verif.Dbm.Props.C99_exist_false",
    "Verif.Dbm.Props.C99_name_false"
   ],
   "note": "False for long names: with a directory of 127 bytes every database exists, and an alias is cut so that the database is attached under another name. Proved: exact results for names that fit."
  }
 ]
}