{
 "claims": [
  {
   "property": "C01",
   "status": "proved",
   "theorems": [
    "Verif.Encoding.C01_primitive_round_trip",
    "Verif.Encoding.C01_encoding_injective",
    "Verif.Encoding.C01_widths"
   ],
   "note": "For every list of values of the seven primitive kinds, any length, any trailing bytes. Lengths below 2^63 (every Go string)."
  },
  {
   "property": "C02",
   "status": "partial",
   "theorems": [
    "Verif.Encoding.C02_class_round_trip",
    "Verif.Encoding.C02_interface_round_trip",
    "Verif.Encoding.C02_trait_round_trip",
    "Verif.Encoding.C02_function_round_trip_partial",
    "Verif.Encoding.C02_method_round_trip_partial",
    "Verif.Encoding.C02_property_round_trip",
    "Verif.Encoding.C02_const_round_trip",
    "Verif.Encoding.C02_classConst_round_trip_partial",
    "Verif.Encoding.C02_globalVariable_round_trip",
    "Verif.Encoding.C02_false_classConst_visibility",
    "Verif.Encoding.C02_false_classConst_visibility_always",
    "Verif.Encoding.C02_false_parameter_description"
   ],
   "note": "Full round trip for classes, interfaces, traits, properties, constants, defines, global variables; for functions and methods all but parameter descriptions; for class constants all but the visibility. The full claim is false of the code: negations proved (class-constant visibility is lost, parameter descriptions are lost)."
  },
  {
   "property": "C03",
   "status": "proved",
   "theorems": [
    "Verif.Encoding.C03_class_truncated",
    "Verif.Encoding.C03_interface_truncated",
    "Verif.Encoding.C03_trait_truncated",
    "Verif.Encoding.C03_function_truncated",
    "Verif.Encoding.C03_method_truncated",
    "Verif.Encoding.C03_property_truncated",
    "Verif.Encoding.C03_const_truncated",
    "Verif.Encoding.C03_classConst_truncated",
    "Verif.Encoding.C03_globalVariable_truncated"
   ],
   "note": "For every symbol kind, every record and every strict prefix. none is a Go panic (slice bounds)."
  },
  {
   "property": "C04",
   "status": "proved",
   "theorems": [
    "Verif.Storage.C04_memory_is_map",
    "Verif.Storage.C04_leveldb_is_map",
    "Verif.Storage.C04_backends_agree",
    "Verif.Storage.C04_latest_put_wins",
    "Verif.Storage.C04_deleted_is_gone",
    "Verif.Storage.C04_combined_get",
    "Verif.Storage.C04_combined_history"
   ],
   "note": "Both back ends refine Key -> Option Value over every operation history. The combined reader of two stores is covered by C04_combined_get."
  },
  {
   "property": "C05",
   "status": "proved",
   "theorems": [
    "Verif.Storage.C05_memory_batch",
    "Verif.Storage.C05_leveldb_batch",
    "Verif.Storage.C05_batch_is_sequence",
    "Verif.Storage.C05_leveldb_direct_writes_survive",
    "Verif.Storage.C05_false_memory_direct_write_lost"
   ],
   "note": "A batch whose function returns an error is discarded, a successful one is the sequence of its operations, for both back ends. Extra finding proved as negation: writes made directly to the in-memory store while a batch is open are lost (C05_false_memory_direct_write_lost); for goleveldb they survive."
  },
  {
   "property": "C06",
   "status": "proved",
   "theorems": [
    "Verif.Storage.C06_memory_prefix_scan",
    "Verif.Storage.C06_leveldb_prefix_scan",
    "Verif.Storage.C06_stop_after_n",
    "Verif.Storage.C06_false_combined_exactly_once"
   ],
   "note": "Exact, sorted, duplicate-free and stoppable for both back ends. Extra finding: the combined reader over two stores delivers a key twice (C06_false_combined_exactly_once)."
  },
  {
   "property": "C07",
   "status": "partial",
   "theorems": [
    "Verif.Store.C07_classes",
    "Verif.Store.C07_interfaces",
    "Verif.Store.C07_traits",
    "Verif.Store.C07_functions",
    "Verif.Store.C07_consts",
    "Verif.Store.C07_defines",
    "Verif.Store.C07_globalVariables",
    "Verif.Store.C07_methods",
    "Verif.Store.C07_all_methods",
    "Verif.Store.C07_properties",
    "Verif.Store.C07_all_properties",
    "Verif.Store.C07_all_classConsts",
    "Verif.Store.C07_classConsts_partial",
    "Verif.Store.C07_false_classConst_prefix"
   ],
   "note": "Exact lookup for every kind after every history of index/delete/restart/crash operations, any names without NUL. Class constants are looked up by prefix without terminator: the full claim is false for them (negation C07_false_classConst_prefix)."
  },
  {
   "property": "C08",
   "status": "partial",
   "theorems": [
    "Verif.Store.C08_never_fails",
    "Verif.Store.C08_index_is_latest_partial",
    "Verif.Store.C08_index_is_latest_plain_partial",
    "Verif.Store.C08_false_duplicate_name",
    "Verif.Store.C08_false_class_constant_in_two_files"
   ],
   "note": "Invariant over every history: found iff declared in the latest version of a live file, with the last declaration winning inside one file. The unqualified claim is false: two declarations with one key in one file, and the same class constant in two files (negations proved)."
  },
  {
   "property": "C09",
   "status": "partial",
   "theorems": [
    "Verif.Store.C09_classes",
    "Verif.Store.C09_interfaces",
    "Verif.Store.C09_traits",
    "Verif.Store.C09_functions",
    "Verif.Store.C09_consts",
    "Verif.Store.C09_defines",
    "Verif.Store.C09_methods",
    "Verif.Store.C09_classConsts",
    "Verif.Store.C09_properties",
    "Verif.Store.C09_false_namespaces"
   ],
   "note": "Proved for all nine symbol kinds, every keyword, filter and limit. False for namespaces (negation proved): the namespace search never checks that the namespace still exists."
  },
  {
   "property": "C10",
   "status": "proved",
   "theorems": [
    "Verif.Store.C10_deleted_symbols_gone",
    "Verif.Store.C10_other_files_unchanged"
   ],
   "note": "Deletion in any reachable state: the file's symbols are gone, and every other file's lookups are unchanged."
  },
  {
   "property": "C11",
   "status": "partial",
   "theorems": [
    "Verif.Store.C11_delete_folder_partial",
    "Verif.Store.C11_delete_folder_slash",
    "Verif.Store.C11_false_sibling"
   ],
   "note": "DeleteFolder removes exactly the files whose URI starts with the folder text; with a trailing slash that is the property. Without it sibling folders sharing the prefix are removed too (negation proved)."
  },
  {
   "property": "C12",
   "status": "partial",
   "theorems": [
    "Verif.Store.C12_unchanged_is_skipped",
    "Verif.Store.C12_changed_is_reindexed",
    "Verif.Store.C12_false_stale_snapshot"
   ],
   "note": "In a synchronised state the unchanged file is skipped and a changed one re-indexed. With the stale snapshot of hashes kept after a pass, returning to an earlier content is wrongly skipped (negation proved)."
  },
  {
   "property": "C13",
   "status": "proved",
   "theorems": [
    "Verif.Store.C13_pass",
    "Verif.Store.C13_pass_equals_fresh_index"
   ],
   "note": "Every state reached by a history, every list of visited files: exactly the unvisited synced files are removed, and the result answers every lookup as a fresh index of the visited files."
  },
  {
   "property": "C14",
   "status": "partial",
   "theorems": [
    "Verif.Store.C14_reindex_after_crash_partial",
    "Verif.Store.C14_references_after_crash_partial",
    "Verif.Store.C14_crash_is_atomic",
    "Verif.Store.C14_false_stale_symbols"
   ],
   "note": "Re-indexing after a crash at any of the durable-write boundaries gives the latest symbols if the crashed version kept every symbol of the previous one; crashes before the first write or after the last are atomic in general. Otherwise stale symbols survive for ever (negation proved)."
  },
  {
   "property": "C15",
   "status": "partial",
   "theorems": [
    "Verif.Store.C15_functions",
    "Verif.Store.C15_interfaces",
    "Verif.Store.C15_traits",
    "Verif.Store.C15_consts",
    "Verif.Store.C15_defines",
    "Verif.Store.C15_methods",
    "Verif.Store.C15_classConsts_partial",
    "Verif.Store.C15_properties_partial",
    "Verif.Store.C15_classes_partial",
    "Verif.Store.C15_classes_bound_partial",
    "Verif.Store.C15_false_limit_zero",
    "Verif.Store.C15_false_scoped_classes",
    "Verif.Store.C15_false_class_constants"
   ],
   "note": "Every search kind with a limit of at least one: at most n results, a prefix of the unlimited result, complete only if nothing was left out. False (negations proved) for limit 0, for class searches with a namespace, and for class constants and properties with an empty keyword."
  },
  {
   "property": "C16",
   "status": "partial",
   "theorems": [
    "Verif.Store.C16_functions",
    "Verif.Store.C16_functions_in_namespace",
    "Verif.Store.C16_interfaces",
    "Verif.Store.C16_interfaces_in_namespace",
    "Verif.Store.C16_traits_partial",
    "Verif.Store.C16_classes",
    "Verif.Store.C16_consts",
    "Verif.Store.C16_defines",
    "Verif.Store.C16_methods_partial",
    "Verif.Store.C16_classConsts",
    "Verif.Store.C16_properties",
    "Verif.Store.C16_false_methods_empty_keyword",
    "Verif.Store.C16_false_scoped_class_case"
   ],
   "note": "All nine kinds, non-empty keywords, with and without a namespace. False (negations proved) for methods with an empty keyword and for class searches with a namespace (case-sensitive)."
  },
  {
   "property": "C17",
   "status": "partial",
   "theorems": [
    "Verif.Tokeniser.C17_total_partial",
    "Verif.Tokeniser.C17_faithful",
    "Verif.Tokeniser.C17_false_panic",
    "Verif.Tokeniser.C17_meets_search_assumptions"
   ],
   "note": "Head, no duplicates and contiguity for every byte string; totality for every name of valid UTF-8. Totality is false in general (negation proved): an upper-case letter, an undecodable byte and a lower-case letter make it panic."
  },
  {
   "property": "C18",
   "status": "partial",
   "theorems": [
    "Verif.Store.C18_references_exact",
    "Verif.Store.C18_no_stale_file",
    "Verif.Store.C18_false_outside_workspace"
   ],
   "note": "Exact for every history with files inside the workspace root and every filter without false negatives. False for files outside the workspace (negation proved)."
  },
  {
   "property": "C19",
   "status": "proved",
   "theorems": [
    "Verif.Store.C19_restart_same_answers"
   ],
   "note": "Restart at any point of any history leaves every reference search unchanged."
  },
  {
   "property": "C20",
   "status": "partial",
   "theorems": [
    "Verif.Store.C20_round_trip_partial",
    "Verif.Store.C20_injective",
    "Verif.Store.C20_false_outside",
    "Verif.Store.C20_false_nested"
   ],
   "note": "Round trip and injectivity for URIs under the root; false outside the root and for nested roots (negations proved)."
  },
  {
   "property": "C21",
   "status": "partial",
   "theorems": [
    "Verif.Document.C21_line_table_partial",
    "Verif.Document.C21_false_lone_cr",
    "Verif.Document.C21_line_of_offset"
   ],
   "note": "Line table exact for every text in which CR occurs only in CRLF, whatever other bytes (also undecodable ones); mapping an offset to its line for every text. False for lone CR (negation C21_false_lone_cr): the next line is recorded as starting at the CR."
  },
  {
   "property": "C22",
   "status": "partial",
   "theorems": [
    "Verif.Document.C22_round_trip_partial",
    "Verif.Document.C22_line_past_end",
    "Verif.Document.C22_false_multibyte",
    "Verif.Document.C22_reported_position_partial",
    "Verif.Document.C22_false_reported_position"
   ],
   "note": "Round trip for every offset whose line is ASCII before it; agreement with the editor's position for the same case without lone CR. False otherwise: positions are produced in bytes and read in characters (C22_false_multibyte, C22_false_reported_position). Positions after the last line: C22_line_past_end."
  },
  {
   "property": "C23",
   "status": "partial",
   "theorems": [
    "Verif.Document.C23_mirrors_editor_partial",
    "Verif.Document.C23_false_astral",
    "Verif.Document.C23_false_lone_cr",
    "Verif.Document.C23_false_past_end"
   ],
   "note": "For every sequence of full and incremental changes on texts without lone CR and without characters beyond U+FFFF; the editor's side is specified on character lists with UTF-16 positions. The full claim is false: C23_false_astral, C23_false_lone_cr. C23_false_past_end: positions behind the last line."
  },
  {
   "property": "C24",
   "status": "partial",
   "theorems": [
    "Verif.Types.C24_round_trip_partial",
    "Verif.Types.C24_texts",
    "Verif.Types.C24_element",
    "Verif.Types.C24_fails_exactly",
    "Verif.Types.C24_false_panic",
    "Verif.Types.C24_false_no_base"
   ],
   "note": "Round trip for every base name and array depth; the exact set of texts on which parsing panics (a single ] before the suffixes) and the negations C24_false_panic, C24_false_no_base."
  },
  {
   "property": "C25",
   "status": "proved",
   "theorems": [
    "Verif.Types.C25_first_of_each_name",
    "Verif.Types.C25_set",
    "Verif.Types.C25_first_kept",
    "Verif.Types.C25_merge",
    "Verif.Types.C25_merge_idempotent"
   ],
   "note": "For every sequence of additions and merges: set of names, order of first appearance, first type of each name kept, idempotent merge."
  },
  {
   "property": "C26",
   "status": "partial",
   "theorems": [
    "Verif.Imports.C26_resolution",
    "Verif.Imports.C26_always_qualified",
    "Verif.Imports.C26_php_partial",
    "Verif.Imports.C26_false_fully_qualified",
    "Verif.Imports.C26_false_case"
   ],
   "note": "Exact resolution for every table and name (C26_resolution); agreement with PHP's rules except for names with a leading backslash that match an alias and aliases that differ in case (negations proved)."
  },
  {
   "property": "C27",
   "status": "partial",
   "theorems": [
    "Verif.Imports.C27_function_partial",
    "Verif.Imports.C27_possible_targets_partial",
    "Verif.Imports.C27_constant_partial",
    "Verif.Imports.C27_false_rest_dropped",
    "Verif.Imports.C27_false_global_first",
    "Verif.Imports.C27_false_fully_qualified"
   ],
   "note": "Agreement with PHP's rules when the qualified name does not start with an alias and the global name is not shadowed; the claim itself is false (C27_false_rest_dropped): the remaining parts are dropped."
  },
  {
   "property": "C28",
   "status": "proved",
   "theorems": [
    "Verif.Imports.C28_last_block_before",
    "Verif.Imports.C28_false_function_calls",
    "Verif.Imports.C28_file"
   ],
   "note": "C28_last_block_before for ordered tables, C28_file for the tables of every file. C28_false_function_calls: function calls do not use this table but the last one of the file."
  },
  {
   "property": "C29",
   "status": "partial",
   "theorems": [
    "Verif.Query.C29_methods",
    "Verif.Query.C29_interfaces",
    "Verif.Query.C29_false_cycle",
    "Verif.Query.C29_false_example",
    "Verif.Query.C29_plain_partial"
   ],
   "note": "Methods (all classes, any hierarchy, any earlier use of the query) and all lookups of interfaces: proved terminating, with a bound independent of the state. Properties and constants: proved to terminate on acyclic hierarchies and proved to run for ever on every cycle of extends (C29_false_cycle), so the property as stated is false."
  },
  {
   "property": "C30",
   "status": "partial",
   "theorems": [
    "Verif.Query.C30_sound",
    "Verif.Query.C30_sound_interfaces",
    "Verif.Query.C30_order",
    "Verif.Query.C30_exact_partial",
    "Verif.Query.C30_plain_order",
    "Verif.Query.C30_false_trait_props",
    "Verif.Query.C30_false_second_call",
    "Verif.Query.C30_false_nested_trait",
    "Verif.Query.C30_false_redeclared",
    "Verif.Query.C30_plain_any_state",
    "Verif.Query.C30_methods_any_state",
    "Verif.Query.C30_order_any_state_partial"
   ],
   "note": "Soundness for every reachable state of a query; exactness and order for a new query; completeness whatever was asked before for properties and constants (C30_plain_any_state) and for the methods of classes without interfaces (C30_methods_any_state). False in general: the second question to a query about methods, traits that use traits, redeclared classes, properties of traits (C30_false_*). For the methods of classes without interfaces the exact answer and its order are proved whatever was asked before (C30_order_any_state_partial)."
  },
  {
   "property": "C31",
   "status": "partial",
   "theorems": [
    "Verif.Query.C31_public",
    "Verif.Query.C31_static_only",
    "Verif.Query.C31_self",
    "Verif.Query.C31_parent",
    "Verif.Query.C31_outside_partial",
    "Verif.Query.C31_this_partial",
    "Verif.Query.C31_private_needs_class",
    "Verif.Query.C31_false_static_private",
    "Verif.Query.C31_false_private_parent",
    "Verif.Query.C31_false_family",
    "Verif.Query.C31_false_constant"
   ],
   "note": "Public members, static-only after Name::, self/static/parent exact, outside of the class exact for methods and properties. False: Foo::privateStatic from anywhere, private members of parents after $this->, protected members in the family, protected constants (C31_false_*)."
  },
  {
   "property": "C32",
   "status": "partial",
   "theorems": [
    "Verif.Query.C32_access",
    "Verif.Query.C32_static",
    "Verif.Query.C32_first",
    "Verif.Query.C32_nearest",
    "Verif.Query.C32_false_case",
    "Verif.Query.C32_union",
    "Verif.Query.C32_nearest_any_state_partial"
   ],
   "note": "One entry per name, the first accessible one, every accessible name reported, nearest class of the lineage first; union types. False of names that differ in case (C32_false_case). Whatever was asked before, for classes without interfaces: C32_nearest_any_state_partial."
  },
  {
   "property": "C33",
   "status": "partial",
   "theorems": [
    "Verif.Rpc.C33_one_partial",
    "Verif.Rpc.C33_roundtrip_partial",
    "Verif.Rpc.C33_unambiguous_partial",
    "Verif.Rpc.C33_false_large",
    "Verif.Rpc.C33_false_empty"
   ],
   "note": "Round trip and unambiguous framing for every sequence of messages shorter than 2^31 bytes. False of larger ones (C33_false_large: the reader rejects the length) and of empty messages (C33_false_empty)."
  },
  {
   "property": "C34",
   "status": "proved",
   "theorems": [
    "Verif.Rpc.C34_read_iff",
    "Verif.Rpc.C34_unknown_header",
    "Verif.Rpc.C34_no_length",
    "Verif.Rpc.C34_bad_length",
    "Verif.Rpc.C34_no_colon",
    "Verif.Rpc.C34_short",
    "Verif.Rpc.C34_truncated",
    "Verif.Rpc.C34_numeral"
   ],
   "note": "C34_read_iff characterises success of Read exactly (a run of header lines with a content length, then that many bytes); the other theorems are the individual rejections. bufio and UTF-8 white space of strings.TrimSpace are modelled for the byte sequences that TrimSpace strips."
  },
  {
   "property": "C35",
   "status": "partial",
   "theorems": [
    "Verif.Rpc.C35_at_most_once",
    "Verif.Rpc.C35_notification",
    "Verif.Rpc.C35_right_id",
    "Verif.Rpc.C35_no_panic",
    "Verif.Rpc.C35_exactly_once_partial",
    "Verif.Rpc.C35_detached_partial",
    "Verif.Rpc.C35_false_cancelled"
   ],
   "note": "Over every schedule of request goroutines and every behaviour of handlers: at most one reply, none for notifications, right id, no panic; exactly one when the handler has finished, unless the request is cancelled while it runs (C35_false_cancelled). With a detached context (what the server does for requests cancelled before they start) also exactly one. Write errors are part of C57."
  },
  {
   "property": "C36",
   "status": "proved",
   "theorems": [
    "Verif.Rpc.C36_order",
    "Verif.Rpc.C36_waits",
    "Verif.Rpc.C36_one_at_a_time",
    "Verif.Rpc.C36_enabled",
    "Verif.Rpc.C36_no_deadlock",
    "Verif.Rpc.C36_bounded"
   ],
   "note": "Order, waiting for all earlier messages, at most one serial handler, a message whose predecessor is out of the way can be started until it is, no deadlock, bounded number of own steps. That handlers themselves return is an assumption on the environment (the step ret is always enabled)."
  },
  {
   "property": "C37",
   "status": "partial",
   "theorems": [
    "Verif.Rpc.C37_distinct_ids",
    "Verif.Rpc.C37_delivery",
    "Verif.Rpc.C37_false_unknown",
    "Verif.Rpc.C37_false_twice",
    "Verif.Rpc.C37_false_cancel_race",
    "Verif.Rpc.C37_no_stall_partial"
   ],
   "note": "Distinct ids up to 2^64 calls, delivery to the right call at most once, for every schedule. The claim about responses nobody waits for is false: an unknown id, a second answer or a cancelled call stop the connection for ever (C37_false_*). If the other side only answers calls once and they are not cancelled meanwhile, the connection never stalls (C37_no_stall_partial)."
  },
  {
   "property": "C38",
   "status": "partial",
   "theorems": [
    "Verif.Server.C38_all_answered_partial",
    "Verif.Server.C38_second_refused",
    "Verif.Server.C38_shutdown",
    "Verif.Server.C38_false_second_initialize",
    "Verif.Server.C38_false_single_file",
    "Verif.Server.C38_folders"
   ],
   "note": "Every request is answered and shutdown works in histories with at most one initialize; a second initialize is refused but keeps the lock, after which nothing of the life cycle is answered (C38_false_second_initialize); an initialize that is refused for naming no folder makes the correct one be refused (C38_false_single_file)."
  },
  {
   "property": "C39",
   "status": "partial",
   "theorems": [
    "Verif.Server.C39_handled_partial",
    "Verif.Server.C39_right_folder_partial",
    "Verif.Server.C39_slash_partial",
    "Verif.Server.C39_false_sibling",
    "Verif.Server.C39_false_outside",
    "Verif.Server.C39_false_remove_inner"
   ],
   "note": "A file is handled by the first folder whose text is a prefix of its own. The right folder is found if no folder is a textual prefix of a file outside it, and always if folders end in a slash. False otherwise (sibling folders, files outside, removal of an inner folder)."
  },
  {
   "property": "C40",
   "status": "partial",
   "theorems": [
    "Verif.Server.C40_bounded",
    "Verif.Server.C40_cleanup_last",
    "Verif.Server.C40_at_rest",
    "Verif.Server.C40_finishes_partial",
    "Verif.Server.C40_undecodable_never_finishes",
    "Verif.Server.C40_false_undecodable"
   ],
   "note": "For every schedule: bounded number of steps, clean-up after all files, no deadlock; every pass finishes if all file names decode. False otherwise: a pass with a file name that cannot be decoded never runs its clean-up (C40_undecodable_never_finishes)."
  },
  {
   "property": "C41",
   "status": "partial",
   "theorems": [
    "Verif.Server.C41_mirror_partial",
    "Verif.Server.C41_change_indexed_partial",
    "Verif.Server.C41_false_open_text",
    "Verif.Server.C41_false_unsaved_file"
   ],
   "note": "For every legal history with arbitrary requests, disk writes and notifications in between: if at each open the server's text for the file is the one sent, the server's text is the editor's from then on. The text sent with open is ignored (C41_false_open_text), and a file not on disk is not known (C41_false_unsaved_file)."
  },
  {
   "property": "C42",
   "status": "partial",
   "theorems": [
    "Verif.Server.C42_reaches_index_partial",
    "Verif.Server.C42_second_notification",
    "Verif.Server.C42_open_documents",
    "Verif.Server.C42_false_copy_in_memory"
   ],
   "note": "The index describes the disk after the notification unless an earlier request left a copy in memory (C42_false_copy_in_memory); a second notification is always effective; open documents are not touched."
  },
  {
   "property": "C43",
   "status": "proved",
   "theorems": [
    "Verif.Symbols.C43_outline"
   ],
   "note": "The outline of every symbol tree shows exactly the declarations, once, in order, unlisted constructs lifted."
  },
  {
   "property": "C44",
   "status": "proved",
   "theorems": [
    "Verif.Symbols.C44_traversal",
    "Verif.Symbols.C44_order_unique",
    "Verif.Symbols.C44_pre_post"
   ],
   "note": "The calls of the visitor are exactly the pre-order walk with refused subtrees left out and cut at the first stop; the order is determined by the positions in the tree."
  },
  {
   "property": "C45",
   "status": "partial",
   "theorems": [
    "Verif.Analyser.C45_analysed_partial",
    "Verif.Symbols.C45_lookup",
    "Verif.Symbols.C45_offered",
    "Verif.Symbols.C45_unused_reported",
    "Verif.Symbols.C45_unused_partial",
    "Verif.Symbols.C45_false_break",
    "Verif.Symbols.C45_document"
   ],
   "note": "Lookup and the offered variables are proved for every sequence of recordings. A declaration without later use is always reported; the converse needs that uses are recorded in text order (C45_false_break). C45_analysed_partial: the condition holds in every scope of every analysed document (Parsed syntax trees)."
  },
  {
   "property": "C46",
   "status": "partial",
   "theorems": [
    "Verif.Symbols.C46_commas",
    "Verif.Symbols.C46_active_partial",
    "Verif.Symbols.C46_false_end_of_argument"
   ],
   "note": "Exact for every cursor in the list: the number of commas at or before it; this is the argument around the cursor unless the cursor is directly in front of a comma (C46_false_end_of_argument)."
  },
  {
   "property": "C47",
   "status": "partial",
   "theorems": [
    "Verif.Symbols.C47_permutation_partial",
    "Verif.Symbols.C47_short_partial",
    "Verif.Symbols.C47_false_order",
    "Verif.Symbols.C47_sorted_partial"
   ],
   "note": "Nothing is lost or duplicated. The order by score is false (C47_false_order); only lists already in increasing order stay ordered."
  },
  {
   "property": "C48",
   "status": "proved",
   "theorems": [
    "Verif.Store.C48_namespaces",
    "Verif.Store.C48_false_each_once"
   ],
   "note": "For every history and any depth: offered below a level iff the namespace has such a level with a matching word (declared in a current file for completeness, in some indexed version for soundness, see C09). Extra finding: an empty keyword lists a nested namespace once per level (negation proved)."
  },
  {
   "property": "C49",
   "status": "partial",
   "theorems": [
    "Verif.Imports.C49_place",
    "Verif.Imports.C49_text",
    "Verif.Imports.C49_false_braces",
    "Verif.Imports.C49_false_several"
   ],
   "note": "Place and text for every list of top-level nodes. As a valid place for the name completed the claim is false with braced namespaces and with several namespaces (negations)."
  },
  {
   "property": "C50",
   "status": "proved",
   "theorems": [
    "Verif.Position.C50_compare",
    "Verif.Position.C50_total_order",
    "Verif.Position.C50_in_range",
    "Verif.Position.C50_compare_range"
   ],
   "note": "Total order, in-range test and range comparison for all positions."
  },
  {
   "property": "C51",
   "status": "partial",
   "theorems": [
    "Verif.Store.C51_functions_partial",
    "Verif.Store.C51_functions_in_namespace_partial",
    "Verif.Store.C51_interfaces_partial",
    "Verif.Store.C51_interfaces_in_namespace_partial",
    "Verif.Store.C51_traits_partial",
    "Verif.Store.C51_classes_partial",
    "Verif.Store.C51_classes_in_namespace",
    "Verif.Store.C51_consts_partial",
    "Verif.Store.C51_defines_partial",
    "Verif.Store.C51_methods_partial",
    "Verif.Store.C51_classConsts_partial",
    "Verif.Store.C51_properties_partial",
    "Verif.Tokeniser.C51_false_stale_word"
   ],
   "note": "Filter, namespace and class scope are exact for every kind; the word matched is a word of the symbol's name in some indexed version. That it is a word of the current name is false (negation proved): after a rename that only changes case the old words still find it."
  },
  {
   "property": "C52",
   "status": "proved",
   "theorems": [
    "Verif.Tokeniser.C52_parts_are_words"
   ],
   "note": "For every valid name, any classification of characters and any position."
  },
  {
   "property": "C53",
   "status": "partial",
   "theorems": [
    "Verif.Imports.C53_unused_partial",
    "Verif.Imports.C53_false_fully_qualified",
    "Verif.Imports.C53_false_case"
   ],
   "note": "For every file without fully qualified references; negations for fully qualified references and for different case."
  },
  {
   "property": "C54",
   "status": "partial",
   "theorems": [
    "Verif.Types.C54_false_array_lost",
    "Verif.Types.C54_printed_partial"
   ],
   "note": "Every type offered first under its name is printed; Foo|Foo[] loses Foo[] (negation)."
  },
  {
   "property": "C55",
   "status": "partial",
   "theorems": [
    "Verif.Imports.C55_accepted_refers_partial",
    "Verif.Imports.C55_false_shadowed",
    "Verif.Imports.C55_false_prefix",
    "Verif.Imports.C55_false_empty_word"
   ],
   "note": "For unqualified non-empty words under explicit conditions on the import table; negations for shadowed names, words that start with an import's name, the empty word."
  },
  {
   "property": "C56",
   "status": "partial",
   "theorems": [
    "Verif.Query.C56_search_partial",
    "Verif.Query.C56_again",
    "Verif.Query.C56_false_other_keyword"
   ],
   "note": "Exact for a new query and for repeating the search. False after a search for another keyword with the same query (C56_false_other_keyword); the handlers use one keyword per request."
  },
  {
   "property": "C57",
   "status": "partial",
   "theorems": [
    "Verif.Rpc.C57_frames",
    "Verif.Rpc.C57_received_partial",
    "Verif.Rpc.C57_progress",
    "Verif.Rpc.C57_false_failed_write"
   ],
   "note": "C57_frames and C57_progress hold for every schedule without failing writes; C57_received_partial adds the reader (messages below 2^31 bytes). After a failed write the stream is broken (C57_false_failed_write), which the statement excludes."
  },
  {
   "property": "C58",
   "status": "partial",
   "theorems": [
    "Verif.Rpc.C58_false_missing_params",
    "Verif.Rpc.C58_dispatch_partial",
    "Verif.Rpc.C58_right_method",
    "Verif.Rpc.C58_answered"
   ],
   "note": "Exact characterisation of the panics of the dispatch: missing parameters of any method that has some (C58_false_missing_params). Otherwise no panic, the right method, one answer. Panics inside of the server's methods are not modelled here."
  },
  {
   "property": "C59",
   "status": "partial",
   "theorems": [
    "Verif.Rpc.C59_number",
    "Verif.Rpc.C59_string_partial",
    "Verif.Rpc.C59_distinct_partial",
    "Verif.Rpc.C59_false_empty",
    "Verif.Rpc.C59_false_fraction"
   ],
   "note": "Numbers of 64 bits and non-empty strings come back as written; false of the empty string and of numbers with fraction or exponent (C59_false_*). Escapes inside JSON strings are not modelled."
  },
  {
   "property": "C60",
   "status": "partial",
   "theorems": [
    "Verif.Store.C60_old_store_emptied",
    "Verif.Store.C60_current_store_kept",
    "Verif.Store.C60_emptied_once",
    "Verif.Store.C60_false_namespaces"
   ],
   "note": "For every history: an index of an older release is emptied, a current one is kept, and one upgrade empties once. The completion index is not cleared (C60_false_namespaces)."
  },
  {
   "property": "C61",
   "status": "partial",
   "theorems": [
    "Verif.Server.C61_no_duplicates",
    "Verif.Server.C61_served_partial",
    "Verif.Server.C61_false_add_again"
   ],
   "note": "No folder is served twice; the files of folders added once and not removed are served. A removed folder cannot be added again (C61_false_add_again)."
  },
  {
   "property": "C62",
   "status": "partial",
   "theorems": [
    "Verif.Server.C62_close_partial",
    "Verif.Server.C62_false_unsaved",
    "Verif.Server.C62_false_lost"
   ],
   "note": "Closing a saved document that the server knew when it was opened leaves the index describing the disk. False with unsaved changes (C62_false_unsaved) and for documents not on disk when opened: their symbols are lost and no notification brings them back (C62_false_lost)."
  },
  {
   "property": "C63",
   "status": "proved",
   "theorems": [
    "Verif.Analyser.C63_analysed",
    "Verif.Analyser.C63_analysed_closest",
    "Verif.Symbols.C63_symbol_at",
    "Verif.Symbols.C63_closest"
   ],
   "note": "C63_analysed and C63_analysed_closest for every analysed document whose syntax tree is Parsed (what the parser, which is not in the repository, is trusted to deliver); from C63_symbol_at and C63_closest for every symbol tree in the order of the text."
  },
  {
   "property": "C64",
   "status": "partial",
   "theorems": [
    "Verif.Analyser.C64_analysed_partial",
    "Verif.Symbols.C64_class_at_partial",
    "Verif.Symbols.C64_class_scope_partial",
    "Verif.Symbols.C64_false_outside",
    "Verif.Symbols.C64_false_anonymous_class"
   ],
   "note": "Inside of classes without nested anonymous classes. False outside of classes and after an anonymous class. C64_analysed...: the conditions hold for every analysed document (Parsed syntax trees)."
  },
  {
   "property": "C65",
   "status": "partial",
   "theorems": [
    "Verif.Analyser.C65_analysed_before_partial",
    "Verif.Analyser.C65_analysed_call_partial",
    "Verif.Symbols.C65_symbol_before_partial",
    "Verif.Symbols.C65_call_partial",
    "Verif.Symbols.C65_false_anonymous_class"
   ],
   "note": "For calls that are not inside the arguments of an anonymous class (C65_false_anonymous_class). C65_analysed...: the conditions hold for every analysed document (Parsed syntax trees)."
  },
  {
   "property": "C66",
   "status": "proved",
   "theorems": [
    "Verif.Analyser.C66_analysed",
    "Verif.Symbols.C66_scope",
    "Verif.Symbols.C66_innermost"
   ],
   "note": "C66_analysed for every analysed document whose syntax tree is Parsed; C66_scope for every tree of scopes, C66_innermost if neighbouring scopes do not overlap."
  },
  {
   "property": "C67",
   "status": "partial",
   "theorems": [
    "Verif.Analyser.C67_variable_partial",
    "Verif.Analyser.C67_parameter_partial",
    "Verif.Analyser.C67_use_partial",
    "Verif.Analyser.C67_false_lost",
    "Verif.Analyser.C67_false_unused",
    "Verif.Analyser.C67_false_reference"
   ],
   "note": "For all syntax trees in which expressions are in the places the analysis looks at (Supported, a decidable condition on the tree: FindSpec.lean). False in general: variables in `$t += $x` with spaces, `??`, `$x[0]->m()`, keys of foreach, `list()`, `instanceof $c` and `use(&$x)` are lost or misnamed, and a used variable is reported as unused (C67_false_lost, C67_false_unused, C67_false_reference)."
  },
  {
   "property": "C68",
   "status": "partial",
   "theorems": [
    "Verif.Analyser.C68_declaration_partial",
    "Verif.Analyser.C68_anonymous_partial",
    "Verif.Analyser.C68_const_partial",
    "Verif.Analyser.C68_define_partial",
    "Verif.Analyser.C68_false_define",
    "Verif.Analyser.C68_false_value",
    "Verif.Analyser.C68_false_native"
   ],
   "note": "For all syntax trees in which expressions are in the places the analysis looks at (Supported, a decidable condition on the tree: FindSpec.lean). Names that are native types or aliases are excluded. False in general: `define` in a namespace, `define` as a value, functions called like a type (C68_false_define, C68_false_value, C68_false_native)."
  },
  {
   "property": "C69",
   "status": "partial",
   "theorems": [
    "Verif.Analyser.C69_found_partial",
    "Verif.Analyser.C69_class_partial",
    "Verif.Analyser.C69_false_anonymous"
   ],
   "note": "For all syntax trees in which expressions are in the places the analysis looks at (Supported, a decidable condition on the tree: FindSpec.lean). That the member is found with name and place holds always under Supported; that its class is right holds when no other class is declared inside the class. False otherwise: C69_false_anonymous."
  },
  {
   "property": "C70",
   "status": "partial",
   "theorems": [
    "Verif.Analyser.C70_complete_partial",
    "Verif.Analyser.C70_order_partial",
    "Verif.Analyser.C70_nested_partial",
    "Verif.Analyser.C70_false_order"
   ],
   "note": "For all syntax trees whose tokens are one after the other and whose phrases have the parts the analysis relies on (Parsed; the parser is not part of the repository). Properties and constants of classes are out of order (C70_false_order)."
  },
  {
   "property": "C71",
   "status": "partial",
   "theorems": [
    "Verif.Analyser.C71_no_nil",
    "Verif.Analyser.C71_sound",
    "Verif.Analyser.C71_found_partial",
    "Verif.Analyser.C71_false_other",
    "Verif.Analyser.C71_false_line",
    "Verif.Analyser.C71_false_nameless"
   ],
   "note": "C71_sound for all syntax trees: each member is written in a tag of a comment that ends on the line before a class of that name. C71_found for comments and classes at the top of a Supported document with only tokens in between. False in general: the comment of another declaration on its line is taken (C71_false_other), a comment on the same line or before an empty line is not (C71_false_line), and `@method` without a name makes a nameless method (C71_false_nameless)."
  },
  {
   "property": "C72",
   "status": "partial",
   "theorems": [
    "Verif.Analyser.C72_sound",
    "Verif.Analyser.C72_function_partial",
    "Verif.Analyser.C72_complete_partial",
    "Verif.Analyser.C72_false_closure",
    "Verif.Analyser.C72_false_parameter",
    "Verif.Analyser.C72_false_lost",
    "Verif.Analyser.C72_false_twice"
   ],
   "note": "C72_sound for all Parsed trees: each edit covers a variable with that name that belongs to the function found. C72_function and C72_complete: for cursors on variables in plain code of a Supported document. False with the cursor on a parameter (nothing is renamed), across closures with `use`, for variables that the analysis loses, and in constructors (two edits for one place)."
  },
  {
   "property": "C73",
   "status": "proved",
   "theorems": [
    "Verif.Analyser.C73_declarations",
    "Verif.Analyser.C73_names",
    "Verif.Analyser.C73_uses",
    "Verif.Analyser.C73_parts",
    "Verif.Analyser.C73_variables",
    "Verif.Analyser.C73_functions"
   ],
   "note": "For all syntax trees, without conditions. Accesses and calls: the symbol has the range and text of the name in that access or call (Node.uses, a small specification by sort); an access still without a name has an empty place. Members from doc comments: C71_sound. Names and classes of declarations: C68, C69."
  },
  {
   "property": "C74",
   "status": "partial",
   "theorems": [
    "Verif.Infer.C74_nothing_made_up",
    "Verif.Infer.C74_known_partial",
    "Verif.Infer.C74_new_partial",
    "Verif.Infer.C74_false_chain",
    "Verif.Infer.C74_false_array",
    "Verif.Infer.C74_false_branch"
   ],
   "note": "C74_nothing_made_up holds for every program and index. C74_known_partial and C74_new_partial: for programs that do not use the value of an assignment and for expressions in which no class occurs at two array depths; both conditions are needed (negations). The index is a parameter; what it answers is C30-C32."
  },
  {
   "property": "C75",
   "status": "partial",
   "theorems": [
    "Verif.Infer.C75_stable_partial",
    "Verif.Infer.C75_false_stale"
   ],
   "note": "The answers are stable, which is the opposite of what a user wants after another file changes: C75_false_stale."
  },
  {
   "property": "C76",
   "status": "partial",
   "theorems": [
    "Verif.Server.Publish.C76_own_versions",
    "Verif.Server.Publish.C76_current_partial",
    "Verif.Server.Publish.C76_all_partial",
    "Verif.Server.Publish.C76_false_two",
    "Verif.Server.Publish.C76_false_stale",
    "Verif.Server.Publish.C76_false_index"
   ],
   "note": "C76_own_versions holds in every schedule. The rest is proved for schedules in which handlers and timer functions are not interrupted; that the code misses deprecations when two documents are opened together, shows an old version when a slow timer function ends late, and does not follow the index, is proved as negations."
  },
  {
   "property": "C77",
   "status": "partial",
   "theorems": [
    "Verif.Query.C77_sound_partial",
    "Verif.Query.C77_once",
    "Verif.Query.C77_agrees_partial",
    "Verif.Query.C77_names_partial",
    "Verif.Query.C77_constants_partial",
    "Verif.Query.C77_false_prefix",
    "Verif.Query.C77_false_inherited",
    "Verif.Query.C77_false_trait",
    "Verif.Query.C77_false_constructor",
    "Verif.Query.C77_false_second"
   ],
   "note": "Exact for names, functions and constants (C77_names_partial), and for a class's own constants if no longer name starts the same (C77_constants_partial); sound for everything but class constants; equal to what go to definition finds for member accesses with a new query. The rest is false of the code: class constants are looked up by prefix and not in parents, traits are never marked, new does not look at the constructor, and a use can be missed after another one because a whole document shares one query."
  },
  {
   "property": "C78",
   "status": "partial",
   "theorems": [
    "Verif.Query.C78_member_sound",
    "Verif.Query.C78_nearest_partial",
    "Verif.Query.C78_names_partial",
    "Verif.Query.C78_functions",
    "Verif.Query.C78_new_partial",
    "Verif.Query.C78_false_alias",
    "Verif.Query.C78_false_interface",
    "Verif.Query.C78_false_case"
   ],
   "note": "Member accesses are sound for all types and states; the nearest declaration is proved for objects of one class; names are exact under conditions that are needed (negations: alias resolved twice, interfaces before ::, case of interface names)."
  },
  {
   "property": "C79",
   "status": "proved",
   "theorems": [
    "Verif.Decl.C79_keywords",
    "Verif.Decl.C79_properties",
    "Verif.Decl.C79_constants",
    "Verif.Decl.C79_method"
   ],
   "note": "Over all child lists of the declarations; at most one visibility keyword, as in PHP."
  },
  {
   "property": "C80",
   "status": "proved",
   "theorems": [
    "Verif.Decl.C80_declared",
    "Verif.Decl.C80_types",
    "Verif.Decl.C80_method_types",
    "Verif.Decl.C80_value_text"
   ],
   "note": "Names, order, values and types; the texts of values are those of the document (C80_value_text). What declared types stand for is C86."
  },
  {
   "property": "C81",
   "status": "proved",
   "theorems": [
    "Verif.Decl.C81_documented",
    "Verif.Decl.C81_undocumented",
    "Verif.Decl.C81_property"
   ],
   "note": "The doc comment is the last one before the declaration, if it ends on the line above; C87 is about that rule."
  },
  {
   "property": "C82",
   "status": "partial",
   "theorems": [
    "Verif.Decl.C82_named",
    "Verif.Decl.C82_php",
    "Verif.Decl.C82_false_self_array"
   ],
   "note": "Exact for every text (C82_named) and by the rules of PHP (C82_php); self[] is wrong (negation)."
  },
  {
   "property": "C83",
   "status": "partial",
   "theorems": [
    "Verif.Decl.C83_extends",
    "Verif.Decl.C83_none",
    "Verif.Decl.C83_implements",
    "Verif.Decl.C83_uses",
    "Verif.Decl.C83_name",
    "Verif.Decl.C83_false_interface",
    "Verif.Decl.C83_false_interface_unresolved"
   ],
   "note": "Proved for classes: parent, interfaces, traits, name. False for interfaces: the bases are not resolved and fully qualified ones are dropped (negations)."
  },
  {
   "property": "C84",
   "status": "partial",
   "theorems": [
    "Verif.Decl.C84_false_mixed_group",
    "Verif.Decl.C84_false_group_range",
    "Verif.Decl.C84_use",
    "Verif.Decl.C84_group",
    "Verif.Decl.C84_resolves"
   ],
   "note": "Proved for use declarations and groups of one kind. False: a group that mixes kinds makes everything a class, and the place of an import in a group is that of the alias only (negations)."
  },
  {
   "property": "C85",
   "status": "partial",
   "theorems": [
    "Verif.Decl.C85_false_native_name",
    "Verif.Decl.C85_class_constant",
    "Verif.Decl.C85_constant"
   ],
   "note": "Proved for class constants and for constants whose name is not that of a native type; for those the namespace is dropped (negation)."
  },
  {
   "property": "C86",
   "status": "partial",
   "theorems": [
    "Verif.Decl.C86_parameter_partial",
    "Verif.Decl.C86_false_return_type",
    "Verif.Decl.C86_false_nullable_self"
   ],
   "note": "Proved for parameters with a type that is written as a name. False for return types, nullable types and self (negations)."
  },
  {
   "property": "C87",
   "status": "partial",
   "theorems": [
    "Verif.Decl.C87_line_above_partial",
    "Verif.Decl.C87_false_same_line"
   ],
   "note": "Proved: a doc comment applies exactly to what begins on the line after its end. False for one on the same line, which applies to the next line's declaration instead (negation)."
  },
  {
   "property": "C88",
   "status": "partial",
   "theorems": [
    "Verif.Query.C88_names_partial",
    "Verif.Query.C88_same",
    "Verif.Query.C88_new",
    "Verif.Query.C88_false_case"
   ],
   "note": "Exact for names, calls of functions and constants (C88_names_partial), for new with inherited constructors (C88_new), and equal to go to definition for members (C88_same with C78). False: names of interfaces are compared with case (negation)."
  },
  {
   "property": "C89",
   "status": "partial",
   "theorems": [
    "Verif.Query.C89_new",
    "Verif.Query.C89_methods_partial",
    "Verif.Query.C89_interface_methods_partial",
    "Verif.Query.C89_functions_partial",
    "Verif.Query.C89_false_namespace",
    "Verif.Query.C89_false_trait",
    "Verif.Query.C89_false_twice"
   ],
   "note": "Exact for new (C89_new), for methods of an object or class of one class (C89_methods_partial), of an object of one interface (C89_interface_methods_partial) and for functions under the import table at the end of the document (C89_functions_partial). False: the last namespace of the file is used for all calls, methods of traits are not described, and a method can be described twice (negations)."
  },
  {
   "property": "C90",
   "status": "proved",
   "theorems": [
    "Verif.Complete.C90_few",
    "Verif.Complete.C90_all",
    "Verif.Complete.C90_declared"
   ],
   "note": "Only declared symbols for every word and limit (C90_declared); everything that matches a plain word if fewer match than the limit allows (C90_all); for any word the list consists of the results of the searches (C90_few)."
  },
  {
   "property": "C91",
   "status": "partial",
   "theorems": [
    "Verif.Complete.C91_classes_partial",
    "Verif.Complete.C91_interfaces_partial",
    "Verif.Complete.C91_traits_partial",
    "Verif.Complete.C91_false_functions_decide",
    "Verif.Complete.C91_false_not_marked"
   ],
   "note": "For plain words, lists of one kind that are not marked are complete for every limit (C91_classes_partial, C91_interfaces_partial, C91_traits_partial). False: the flag of lists of several kinds is that of the last search, so a list that leaves classes out is not marked (C91_false_not_marked, C91_false_functions_decide)."
  },
  {
   "property": "C92",
   "status": "proved",
   "theorems": [
    "Verif.Complete.C92_right",
    "Verif.Complete.C92_once",
    "Verif.Complete.C92_class",
    "Verif.Complete.C92_interface",
    "Verif.Complete.C92_outside"
   ],
   "note": "Every proposal right for all types (C92_right), none twice (C92_once), complete and nearest for an expression of one class (C92_class) or one interface (C92_interface), outside of the class the rule is: public (C92_outside). Class and interface names are different (Distinct, Apart); names have no colon (Names)."
  },
  {
   "property": "C93",
   "status": "proved",
   "theorems": [
    "Verif.Complete.C93_right",
    "Verif.Complete.C93_once",
    "Verif.Complete.C93_class",
    "Verif.Complete.C93_interface"
   ],
   "note": "C93_right, C93_once, C93_class, C93_interface, under the conditions of C92."
  },
  {
   "property": "C94",
   "status": "partial",
   "theorems": [
    "Verif.Complete.C94_text_partial",
    "Verif.Complete.C94_false_property"
   ],
   "note": "True of methods and constants; what is inserted for a property is its name without the dollar sign (C94_text_partial). False of properties: `A::` and accepting `$s` gives `A::s`, a constant (C94_false_property)."
  },
  {
   "property": "C95",
   "status": "partial",
   "theorems": [
    "Verif.Complete.C95_trait_partial",
    "Verif.Complete.C95_false_own"
   ],
   "note": "False: completion looks up classes and interfaces only, so nothing is offered (C95_trait_partial, C95_false_own), although go to definition finds the members of the trait."
  },
  {
   "property": "C96",
   "status": "proved",
   "theorems": [
    "Verif.Analyser.C96_exact",
    "Verif.Analyser.C96_once",
    "Verif.Analyser.C96_written"
   ],
   "note": "C96_exact, C96_once, C96_written; the tables are those of the model of the analysis (C67, C73), the syntax tree is as the parser delivers it (Parsed)."
  },
  {
   "property": "C97",
   "status": "proved",
   "theorems": [
    "Verif.Document.C97_word"
   ],
   "note": "C97_word, through a model of the Go library's regular expression search for this pattern (leftmost-first)."
  },
  {
   "property": "C98",
   "status": "partial",
   "theorems": [
    "Verif.Document.C98_name_partial",
    "Verif.Document.C98_false_letters"
   ],
   "note": "True if no character on the line before the cursor is beyond U+00FF (C98_name_partial). False otherwise: the class `\\x80-\\xff` of the regular expression ranges over code points, not bytes, so after `Wałęsa` completion looks for `sa` (C98_false_letters)."
  },
  {
   "property": "C99",
   "status": "proved",
   "theorems": [
    "Verif.References.C99_class_use",
    "Verif.References.C99_self"
   ],
   "note": "C99_class_use, C99_self. The types of a name are those that the analysis gives to it (C26); the tokens of a tree come one after the other; the files are inside the workspace (C18)."
  },
  {
   "property": "C100",
   "status": "partial",
   "theorems": [
    "Verif.References.C100_class_partial",
    "Verif.References.C100_false_start_of_name",
    "Verif.References.C100_false_trait",
    "Verif.References.C100_false_second_namespace"
   ],
   "note": "C100_class_partial: true for classes and interfaces in the first namespace block of a file, with the cursor behind the first letter. False: with the cursor before the first letter (C100_false_start_of_name), for the declaration of a trait (C100_false_trait), and in a further namespace block of a file (C100_false_second_namespace)."
  },
  {
   "property": "C101",
   "status": "partial",
   "theorems": [
    "Verif.References.C101_method_declaration",
    "Verif.References.C101_constant_declaration",
    "Verif.References.C101_property_declaration_partial",
    "Verif.References.C101_method_use",
    "Verif.References.C101_property_use",
    "Verif.References.C101_constant_use",
    "Verif.References.C101_false_other_class",
    "Verif.References.C101_false_default_value",
    "Verif.References.C101_false_dynamic_name",
    "Verif.References.C101_false_case"
   ],
   "note": "Proved for all members of that name, whatever their class: C101_method_declaration, C101_constant_declaration, C101_method_use, C101_property_use, C101_constant_use; for declarations of properties without default value (C101_property_declaration_partial). False: members of other classes are listed (C101_false_other_class), the declaration of a property with a default value finds nothing (C101_false_default_value), `$a->$b` counts as a use of a property `$b` (C101_false_dynamic_name), methods called in another case are not found (C101_false_case)."
  },
  {
   "property": "C102",
   "status": "partial",
   "theorems": [
    "Verif.References.C102_call",
    "Verif.References.C102_declaration_partial",
    "Verif.References.C102_false_twice",
    "Verif.References.C102_false_second_namespace",
    "Verif.References.`A`,.C102_false_other_function"
   ],
   "note": "C102_call: exactly the declarations and calls of the functions that the name may stand for; C102_declaration_partial: for a declaration in a file without namespace. False: a call is listed twice (C102_false_twice), a function of a further namespace block (C102_false_second_namespace), calls of another function (C102_false_other_function)."
  },
  {
   "property": "C103",
   "status": "proved",
   "theorems": [
    "Verif.Store.C103_lookups_as_if_in_turn",
    "Verif.Store.C103_no_call_panics",
    "Verif.Store.C103_dies_at_any_moment"
   ],
   "note": "C103_lookups_as_if_in_turn, C103_no_call_panics, C103_dies_at_any_moment. The steps of a call are its reads and writes of the shared databases and of the map of filters, each atomic in its library. Names and URIs as in C11 and C16."
  },
  {
   "property": "C104",
   "status": "proved",
   "theorems": [
    "Verif.Store.C104_as_if_in_turn",
    "Verif.Store.C104_pass_order_does_not_matter"
   ],
   "note": "C104_as_if_in_turn, C104_pass_order_does_not_matter."
  },
  {
   "property": "C105",
   "status": "proved",
   "theorems": [
    "Verif.Store.C105_references_meanwhile"
   ],
   "note": "C105_references_meanwhile, provided that the membership filter forgets no inserted key (C18)."
  },
  {
   "property": "C106",
   "status": "partial",
   "theorems": [
    "Verif.Store.C106_one_version_partial",
    "Verif.Store.C106_false_stale_symbol"
   ],
   "note": "C106_one_version_partial: calls for one file do not overlap; C107 says what holds when they do. False otherwise: C106_false_stale_symbol, both calls look for what there is to remove before either writes; symbols of the earlier version stay for ever."
  },
  {
   "property": "C107",
   "status": "proved",
   "theorems": [
    "Verif.Store.C107_nothing_missing_nothing_invented",
    "Verif.Store.C107_no_call_panics"
   ],
   "note": "C107_nothing_missing_nothing_invented, C107_no_call_panics. That the lists may hold symbols of an earlier version is C106."
  },
  {
   "property": "C108",
   "status": "partial",
   "theorems": [
    "Verif.Complete.C108_symbols",
    "Verif.Complete.C108_namespaces_partial",
    "Verif.Complete.C108_false_case"
   ],
   "note": "C108_symbols: proved for symbols. C108_namespaces_partial: for namespaces whose name begins with the word in the same case. False for a word in another case, for which a namespace is offered as well (C108_false_case). That the editor replaces the part behind the last `\\` is not modelled."
  },
  {
   "property": "C109",
   "status": "proved",
   "theorems": [
    "Verif.Server.Races.C109_editor_text",
    "Verif.Server.Races.C109_change_applied",
    "Verif.Server.Races.C109_needs_quiet"
   ],
   "note": "C109_editor_text: the text in memory; C109_change_applied: a change is applied to the editor's text. C109_needs_quiet: without the restriction it is false. The handlers run one after the other (C36); SyncDocument is one step here, its own interleavings are C103-C107; a text stands for its hash."
  },
  {
   "property": "C110",
   "status": "proved",
   "theorems": [
    "Verif.Server.Races.C110_index",
    "Verif.Server.Races.C110_needs_quiet"
   ],
   "note": "C110_index. C110_needs_quiet: without the restriction it is false."
  },
  {
   "property": "C111",
   "status": "proved",
   "theorems": [
    "Verif.Server.Races.C111_no_deadlock",
    "Verif.Server.Races.C111_bounded",
    "Verif.Server.Races.C111_exclusive"
   ],
   "note": "C111_exclusive, C111_no_deadlock, C111_bounded. The locks of the maps are inside single steps; the lock that Load takes for the parser is not modelled."
  },
  {
   "property": "C112",
   "status": "proved",
   "theorems": [
    "Verif.Server.Races.C112_workers",
    "Verif.Server.Races.C112_needs_no_request"
   ],
   "note": "C112_workers. C112_needs_no_request: with a hover for the file, an incomplete record can be written, with the hash of the whole text, and a later pass leaves it as it is."
  },
  {
   "property": "C113",
   "status": "proved",
   "theorems": [
    "Verif.Uri.C113_reads",
    "Verif.Uri.C113_drive",
    "Verif.Uri.C113_needs_plain"
   ],
   "note": "C113_reads (exact), C113_drive. C113_needs_plain: with `+` another file is read, with `%` none or another, with `:` the path becomes a Windows path. The editor's URI is that of VS Code: all bytes but letters, digits, `-_.~` and `/` as %XX. net/url is transcribed from the Go library; URIs with a host are not modelled."
  },
  {
   "property": "C114",
   "status": "proved",
   "theorems": [
    "Verif.Uri.C114_same_uri",
    "Verif.Uri.C114_read_back",
    "Verif.Uri.C114_distinct",
    "Verif.Uri.C114_needs_no_space",
    "Verif.Uri.C114_needs_no_drive"
   ],
   "note": "C114_same_uri (exact), C114_read_back (exact), C114_distinct. C114_needs_no_space: a file that is indexed under another URI than the editor's. C114_needs_no_drive: with a drive no URI of a file begins with the folder's URI as VS Code writes it, and none is indexed."
  },
  {
   "property": "C115",
   "status": "proved",
   "theorems": [
    "Verif.Uri.C115_watched",
    "Verif.Uri.C115_needs_plain"
   ],
   "note": "C115_watched. C115_needs_plain: a file with parentheses in its name is indexed under two URIs, a report for a name with `%` fails (and the goroutine that reported it waits for ever), one for a name with `?` reaches another file."
  },
  {
   "property": "C116",
   "status": "proved",
   "theorems": [
    "Verif.Uri.C116_no_panic",
    "Verif.Uri.C116_files",
    "Verif.Uri.C116_distinct",
    "Verif.Uri.C116_component"
   ],
   "note": "C116_no_panic: making the name panics exactly for URIs without a path, such as `file://`. C116_files, C116_component, C116_distinct. MD5 is a parameter of which only the form of its result is assumed."
  },
  {
   "property": "C117",
   "status": "proved",
   "theorems": [
    "Verif.Show.C117_function",
    "Verif.Show.C117_method",
    "Verif.Show.C117_needs_plain"
   ],
   "note": "C117_function, C117_method. C117_needs_plain: `&`, `...`, `abstract`/`final` and declared return types are not shown (the statement does not promise them). The tree, the strip pattern and the Markdown converter are parameters; array depths have to fit an int, texts 2^63 bytes."
  },
  {
   "property": "C118",
   "status": "proved",
   "theorems": [
    "Verif.Show.C118_function",
    "Verif.Show.C118_method",
    "Verif.Show.C118_places",
    "Verif.Show.C118_needs_no_parameter_text",
    "Verif.Show.C118_needs_declared"
   ],
   "note": "C118_function, C118_method, C118_places. C118_needs_no_parameter_text: the text of a `@param` tag never reaches the signature (descriptions of parameters are not stored). C118_needs_declared: a default value that is written but empty."
  },
  {
   "property": "C119",
   "status": "proved",
   "theorems": [
    "Verif.Show.C119_class",
    "Verif.Show.C119_interface",
    "Verif.Show.C119_trait",
    "Verif.Show.C119_define",
    "Verif.Show.C119_needs_closed_quotes",
    "Verif.Show.C119_property",
    "Verif.Show.C119_class_constant",
    "Verif.Show.C119_constant",
    "Verif.Show.C119_needs_relative_bases"
   ],
   "note": "C119_class, C119_interface, C119_trait, C119_property, C119_class_constant, C119_constant. C119_needs_relative_bases: bases of an interface with a leading backslash are dropped. Names such as `boolean`, `integer` and those ending in `]` are excluded (they are no class names)."
  },
  {
   "property": "C120",
   "status": "proved",
   "theorems": [
    "Verif.Show.C120_define",
    "Verif.Show.C120_function",
    "Verif.Show.C120_method",
    "Verif.Show.C120_class",
    "Verif.Show.C120_members",
    "Verif.Show.C120_constant"
   ],
   "note": "C120_function, C120_method, C120_class, C120_members, C120_constant. Traits and global variables have no such tag. Which uses are marked is C77."
  },
  {
   "property": "C121",
   "status": "proved",
   "theorems": [
    "Verif.Marks.C121_errors",
    "Verif.Marks.C121_fails_iff",
    "Verif.Marks.C121_needs_placed"
   ],
   "note": "C121_errors, C121_fails_iff. The parser is a parameter (any tree). C121_needs_placed: an error without any token stops the server. Positions are those of C22."
  },
  {
   "property": "C122",
   "status": "proved",
   "theorems": [
    "Verif.Marks.C122_arguments",
    "Verif.Marks.C122_active",
    "Verif.Marks.C122_hints",
    "Verif.Marks.C122_needs_expressions"
   ],
   "note": "C122_hints (all calls of a document), C122_arguments (which expressions), C122_active (agreement with signature help). Which declarations a call refers to is C89, the names of parameters are C79; both are parameters here. C122_needs_expressions: a doc comment between the parentheses counts as an argument."
  },
  {
   "property": "C123",
   "status": "proved",
   "theorems": [
    "Verif.Complete.C123_names",
    "Verif.Complete.C123_variables",
    "Verif.Complete.C123_members"
   ],
   "note": "C123_names, C123_variables, C123_members. The symbol under the cursor (C63) and its scope are parameters. The lists themselves are C90-C96."
  },
  {
   "property": "C124",
   "status": "proved",
   "theorems": [
    "Verif.Complete.C124_expression",
    "Verif.Complete.C124_interfaces",
    "Verif.Complete.C124_traits",
    "Verif.Complete.C124_variables",
    "Verif.Complete.C124_static",
    "Verif.Complete.C124_colons",
    "Verif.Complete.C124_identifier",
    "Verif.Complete.C124_arrow",
    "Verif.Complete.C124_class",
    "Verif.Complete.C124_needs_place"
   ],
   "note": "C124_expression, C124_interfaces, C124_traits, C124_variables, C124_static, C124_colons, C124_identifier, C124_arrow, C124_class. The symbol under the cursor (C63) and its scope are parameters. C124_needs_place: at names in other places nothing is offered: the name of a call with parentheses, a name after `use` of a namespace."
  },
  {
   "property": "C125",
   "status": "proved",
   "theorems": [
    "Verif.Whole.C125_lookups",
    "Verif.Whole.C125_names",
    "Verif.Whole.C125_functions",
    "Verif.Whole.C125_constants",
    "Verif.Whole.C125_members",
    "Verif.Whole.C125_methods",
    "Verif.Whole.C125_properties"
   ],
   "note": "C125_lookups, C125_names, C125_functions, C125_constants, C125_members, C125_methods. Joins the model of the index (C07-C14) with that of the queries (C29-C32, C78): what the queries take as lists of declarations is read off the bytes of the store. The types of the object and the name that is accessed are those of the symbol under the cursor (C58-C63)."
  },
  {
   "property": "C126",
   "status": "proved",
   "theorems": [
    "Verif.Whole.C126_names",
    "Verif.Whole.C126_functions",
    "Verif.Whole.C126_function_shown",
    "Verif.Whole.C126_class_shown",
    "Verif.Whole.C126_interface_shown",
    "Verif.Whole.C126_trait_shown",
    "Verif.Whole.C126_constant_shown",
    "Verif.Whole.C126_define_shown"
   ],
   "note": "C126_names, C126_functions, C126_function_shown. Joins C125 (index and queries) with C117 (from the syntax tree of a declaration to the text). Rendering of markdown is a parameter; the syntax tree is given (C17-C20). C126_class_shown, C126_interface_shown, C126_trait_shown, C126_constant_shown and C126_define_shown follow a declaration from the tree of its file to the text of the hover."
  },
  {
   "property": "C127",
   "status": "proved",
   "theorems": [
    "Verif.Whole.C127_marks",
    "Verif.Whole.C127_function_source"
   ],
   "note": "C127_marks, C127_function_source. Joins the index (C07-C14), the queries and the marks (C77), and the analyser's record of `@deprecated` (C120). That every use of a deprecated method or property is marked is false (C77_false_second) and not claimed; traits are never marked (C77_false_trait)."
  },
  {
   "property": "C128",
   "status": "proved",
   "theorems": [
    "Verif.Whole.C128_listed",
    "Verif.Whole.C128_empty",
    "Verif.Whole.C128_matching"
   ],
   "note": "C128_listed, C128_empty, C128_matching. One counter is shared by all searches of a request: when it has reached 1000 each further search of each folder still adds one entry, hence the bound. The index of words is not cleaned up, hence \"or an earlier version\" (C51)."
  },
  {
   "property": "C129",
   "status": "proved",
   "theorems": [
    "Verif.Store.C129_open",
    "Verif.Store.C129_equals_fresh_index",
    "Verif.Store.C129_needs_bundled"
   ],
   "note": "C129_open, C129_equals_fresh_index. Assumes that the content hash tells versions of a file apart and that crashes are as in C14. C129_needs_bundled: a bundled file that a later release no longer has stays in the index."
  },
  {
   "property": "C130",
   "status": "proved",
   "theorems": [
    "Verif.Whole.C130_functions",
    "Verif.Whole.C130_function_shown",
    "Verif.Whole.C130_methods",
    "Verif.Whole.C130_new",
    "Verif.Whole.C130_method_signature"
   ],
   "note": "C130_functions, C130_function_shown, C130_methods, C130_new, C130_method_signature. For methods and constructors: class names are unique, classes and interfaces are called differently, methods of this name are written alike. That the last import table is used for every call of the file is C89_false_namespace."
  },
  {
   "property": "C131",
   "status": "proved",
   "theorems": [
    "Verif.Whole.C131_arrow_right",
    "Verif.Whole.C131_arrow_class",
    "Verif.Whole.C131_scope_right",
    "Verif.Whole.C131_scope_class",
    "Verif.Whole.C131_ends"
   ],
   "note": "C131_arrow_right, C131_arrow_class, C131_scope_right, C131_scope_class, C131_ends. The names of classes are unique and differ from those of interfaces, no member has a colon in its name. The class constants are public, since their visibility is not stored (C02). Properties of traits are not offered and a type that is a trait offers nothing (C95); what a property inserts after `::` is C94."
  },
  {
   "property": "C132",
   "status": "proved",
   "theorems": [
    "Verif.Complete.C132_arrow",
    "Verif.Complete.C132_scope",
    "Verif.Complete.C132_needs_nocycle_scope",
    "Verif.Query.C132_definition",
    "Verif.Query.C132_hover",
    "Verif.Query.C132_signatures",
    "Verif.Query.C132_deprecated",
    "Verif.Query.C132_needs_nocycle",
    "Verif.Whole.C132_history"
   ],
   "note": "C132_definition, C132_hover, C132_deprecated, C132_signatures, C132_arrow, C132_scope, C132_history. That the condition is needed: C132_needs_nocycle (go to definition on a property never ends), C132_needs_nocycle_scope (completion after `::` never ends). Properties with an empty name are excluded in C132_arrow: their label would be sliced out of range."
  },
  {
   "property": "C133",
   "status": "proved",
   "theorems": [
    "Verif.Whole.C133_nothing_made_up",
    "Verif.Whole.C133_known",
    "Verif.Whole.C133_object"
   ],
   "note": "C133_nothing_made_up and C133_known, on top of C74. `Declared` and `Stated` in Whole/TypesSpec.lean say what the current files declare. The names of classes and interfaces are unique. Inherited members are left out of the second part because they are lost on the second question of a request (C30_false_second_call). That calls in other namespaces than the last of the file are read wrongly is the finding C89_false_namespace."
  },
  {
   "property": "C134",
   "status": "proved",
   "theorems": [
    "Verif.Whole.C134_found",
    "Verif.Whole.C134_open",
    "Verif.Whole.C134_needs_folder"
   ],
   "note": "C134_found for the walk, C134_open for the whole way from the directory to the index, on top of C113, C114 and C129. The files are indexed one after the other here; C104 and C107 are about several at a time. C134_needs_folder: opening a folder that does not exist ends the server."
  },
  {
   "property": "C135",
   "status": "proved",
   "theorems": [
    "Verif.Whole.C135_declared",
    "Verif.Whole.C135_file",
    "Verif.Whole.C135_known",
    "Verif.Whole.C135_in_expressions",
    "Verif.Whole.C135_no_description",
    "Verif.Whole.C135_needs_last_statement"
   ],
   "note": "C135_declared and C135_file for a file, C135_known for the index after any history, C135_in_expressions for the types of expressions (it says what the global variables in C133 are). C135_needs_last_statement: types of earlier statements in the same file are forgotten. C135_no_description: the text of a @global tag is dropped. That the variable copied from the global variable shares its slice of types is not modelled."
  },
  {
   "property": "C136",
   "status": "proved",
   "theorems": [
    "Verif.Whole.C136_refers",
    "Verif.Whole.C136_leads",
    "Verif.Whole.C136_function",
    "Verif.Whole.C136_constant",
    "Verif.Whole.C136_needs_not_hidden",
    "Verif.Whole.C136_needs_no_global"
   ],
   "note": "C136_refers for the name, C136_leads for go to definition on classes, interfaces and traits, C136_function and C136_constant for the others (C90, C55 and C125 together). C136_needs_not_hidden: with use Lib\\Foo, completing App\\Foo leads to Lib\\Foo. C136_needs_no_global: completing App\\hide leads to the global function hide if there is one. Where the use statement is inserted is C49."
  },
  {
   "property": "C137",
   "status": "proved",
   "theorems": [
    "Verif.Whole.C137_names",
    "Verif.Whole.C137_members",
    "Verif.Whole.C137_class",
    "Verif.Whole.C137_interface",
    "Verif.Whole.C137_trait",
    "Verif.Whole.C137_constant",
    "Verif.Whole.C137_define",
    "Verif.Whole.C137_function",
    "Verif.Whole.C137_method",
    "Verif.Whole.C137_property",
    "Verif.Whole.C137_class_constant",
    "Verif.Whole.C137_import",
    "Verif.Whole.`App`.C137_needs_one_segment"
   ],
   "note": "C137_names and C137_members: every item speaks about a live declaration, and nothing of what is said is lost in the index. C137_class, C137_interface, C137_trait, C137_constant, C137_define, C137_function, C137_method, C137_property and C137_class_constant: what is said, from the tree of the declaration. C137_import: the announced text is the inserted one. C137_needs_one_segment: for a word with a namespace the import of the namespace is announced. The class that a member was found in is a parameter. The conversion of HTML to Markdown is external."
  },
  {
   "property": "C138",
   "status": "proved",
   "theorems": [
    "Verif.Whole.C138_right",
    "Verif.Whole.C138_methods",
    "Verif.Whole.C138_method_shown",
    "Verif.Whole.C138_new",
    "Verif.Whole.C138_new_class",
    "Verif.Whole.C138_properties",
    "Verif.Whole.C138_property_text"
   ],
   "note": "For every history of the store: the lookups run on the decoded store contents. The kind of the scope of a member is recovered from its name (simplification noted at `scopeNamed`): it is exact unless a class, interface or trait share their name."
  },
  {
   "property": "C139",
   "status": "proved",
   "theorems": [
    "Verif.Whole.C139_right",
    "Verif.Whole.C139_known"
   ],
   "note": "The text, the order of the recorded expressions and that no class is shown twice are proved for all programs. Which types are missed (values of assignments used as expressions, a class at two array depths) is the subject of C74."
  },
  {
   "property": "C140",
   "status": "proved",
   "theorems": [
    "Verif.Analyser.in.C140_names",
    "Verif.Analyser.in.C140_needs_orderly"
   ],
   "note": "For all trees with namespaces at the outer level; C140_needs_orderly shows that a namespace inside another one stays in force. The namespace is put in front of names that are not written like a type and have no backslash in front (C68_false_native has the others). Constants of define get the namespace as well, which PHP would not do (C68_false_define). An anonymous class that has no written name has the one made from its place."
  },
  {
   "property": "C141",
   "status": "proved",
   "theorems": [
    "Verif.Whole.C141_definition",
    "Verif.Whole.C141_members",
    "Verif.Whole.C141_symbols"
   ],
   "note": "Composes the analysis (C68, C140), the index (C08) and the queries (C125). The model of the analysis and the model of the index each have their own symbols; that they are the same objects of the code is the definition OfText. The conditions of C125 (no import with the first part of the name as alias) and of C68 remain."
  },
  {
   "property": "C142",
   "status": "proved",
   "theorems": [
    "Verif.Decl.C142_access",
    "Verif.Decl.C142_relative",
    "Verif.Decl.C142_instanceof",
    "Verif.Decl.C142_heads",
    "Verif.Decl.C142_new",
    "Verif.Decl.C142_anonymous",
    "Verif.Decl.C142_types",
    "Verif.Decl.C142_needs_lower_case",
    "Verif.Decl.C142_needs_no_self",
    "Verif.Whole.C142_class_definition",
    "Verif.Whole.C142_type_definition",
    "Verif.Whole.C142_head_definition"
   ],
   "note": "Relative to the class that the analysis takes for the enclosing one (see C69_false_anonymous for code behind an anonymous class). The conditions of C26 on names remain. Other spellings (`SELF`), and `self` behind `new` or as a type, are taken for classes of the namespace: C142_needs_lower_case, C142_needs_no_self."
  },
  {
   "property": "C143",
   "status": "proved",
   "theorems": [
    "Verif.Whole.C143_function",
    "Verif.Whole.C143_constant"
   ],
   "note": "Composes C27 and C141; C27's condition that one of the candidates exists is not needed, since otherwise nothing is written under either name. The other conditions of C27 are the structure PlainUse; without them the claim is false (C27_false_rest_dropped, C27_false_global_first, C27_false_fully_qualified)."
  },
  {
   "property": "C144",
   "status": "proved",
   "theorems": [
    "Verif.Decl.C144_types",
    "Verif.Decl.C144_property",
    "Verif.Decl.C144_new",
    "Verif.Decl.C144_parameter",
    "Verif.Decl.C144_needs_above",
    "Verif.Decl.C144_needs_no_class_inside",
    "Verif.Decl.C144_needs_written"
   ],
   "note": "The limits of the statement are needed: C144_needs_above (a property declared below the constructor gets nothing), C144_needs_no_class_inside (behind an anonymous class the assignment goes to the properties of that class), C144_needs_written ($this->$a = … gives its type to $a). The name read is the one of the model of the whole analysis (readMemberName_scan)."
  },
  {
   "property": "C145",
   "status": "partial",
   "theorems": [
    "Verif.Analyser.C145_found_partial",
    "Verif.Analyser.C145_false_default",
    "Verif.Analyser.C145_false_return"
   ],
   "note": "False in general: C145_false_default (class constants in default values of parameters and in the values of constants are not looked at) and C145_false_return (nor the names an interface extends and return types). Proved for all code made of the constructs in UsesSupported (Analyser/FindSpec.lean): functions, classes, methods, closures, blocks, assignments, calls, accesses, creations, operators and more, nested to any depth."
  },
  {
   "property": "C146",
   "status": "proved",
   "theorems": [
    "Verif.References.C146_method_use",
    "Verif.References.C146_method_declaration",
    "Verif.References.C146_property_use",
    "Verif.References.C146_constant_use",
    "Verif.References.C146_constant_declaration",
    "Verif.References.C146_call"
   ],
   "note": "Composition of C99-C102 (the index), C145 and C69 (what is found), C73, C71 and C140 (what is a symbol). That the symbols of the two models are the same objects is the hypothesis Texts. For the names of classes see C148. Declarations with the cursor on a property: C101_property_declaration_partial."
  },
  {
   "property": "C147",
   "status": "partial",
   "theorems": [
    "Verif.Server.C147_once",
    "Verif.Server.C147_watched_partial",
    "Verif.Server.C147_false_inner",
    "Verif.Server.C147_false_not_a_folder"
   ],
   "note": "No watcher is asked for twice: in full (C147_once). The rest holds for histories in which no URI is the beginning of another's (C147_watched_partial) and is false otherwise (C147_false_inner, C147_false_not_a_folder): removeView finds a store by prefix but takes back the watcher of the URI it was given."
  },
  {
   "property": "C148",
   "status": "proved",
   "theorems": [
    "Verif.References.C148_use",
    "Verif.References.C148_declaration"
   ],
   "note": "Composition of C99, C100 (the index), C145, C68, C140 (the text) and C142 (what names stand for). That the symbols of the models are the same objects, with the types that the model of names gives them at their place, are the hypotheses Texts and Typed. self, static and $this before :: are not listed (C99_self). Names that an interface extends and return types are no symbols, so they are never listed (C145_false_return); names in doc comments are covered by soundness only."
  },
  {
   "property": "C149",
   "status": "proved",
   "theorems": [
    "Verif.Whole.C149_static_property",
    "Verif.Whole.C149_static_method",
    "Verif.Whole.C149_needs_static",
    "Verif.Whole.C149_needs_last_table",
    "Verif.Whole.C149_property",
    "Verif.Whole.C149_method",
    "Verif.Whole.C149_function"
   ],
   "note": "Composition of C81 and C144 (what the analysis records) with C133 (what the index answers); C149_static_property and C149_static_method are the same after ::. That the types in the index are the ones the analysis recorded is the hypothesis SameTypes. Return types declared in code are not recorded at all (C86_false_return_type). C149_needs_static: a method that is not static has no type after a class name. C149_needs_last_table: names of functions are looked up with the imports at the end of the file, not at the call."
  },
  {
   "property": "C150",
   "status": "partial",
   "theorems": [
    "Verif.Whole.C150_method_no_interfaces",
    "Verif.Whole.C150_property",
    "Verif.Whole.C150_method_partial",
    "Verif.Whole.C150_false_second_question"
   ],
   "note": "Properties, and methods of classes without interfaces above them: for every state of the request. Other methods: only for the first question of a request; C150_false_second_question shows an inherited method that is lost if the parent's method was asked for before, because both classes implement the same interface. Classes and interfaces must have different names (ClassesApart)."
  },
  {
   "property": "C151",
   "status": "proved",
   "theorems": [
    "Verif.Whole.C151_chain",
    "Verif.Whole.C151_call",
    "Verif.Whole.C151_fluent"
   ],
   "note": "By induction over the chain (Chain). At each link, one declaration of that name above each possible class, or none; for methods the class implements no interface (with one, C150_false_second_question), and classes, interfaces and traits have different names. Names of types only, not the array levels. C151_call composes the last link with the text of the doc comment."
  },
  {
   "property": "C152",
   "status": "partial",
   "theorems": [
    "Verif.Whole.C152_property",
    "Verif.Whole.C152_method_partial",
    "Verif.Whole.C152_chain_property",
    "Verif.Whole.C152_chain_method_partial",
    "Verif.Whole.C152_false_chain_with_interfaces"
   ],
   "note": "Proved for properties, and for methods if neither the class nor a class above it implements an interface; one type before the operator, no trait called like it. With interfaces it is false: C152_false_chain_with_interfaces ($a->m()->m() leads nowhere because the query remembers the interface as searched)."
  },
  {
   "property": "C153",
   "status": "partial",
   "theorems": [
    "Verif.Whole.C153_property",
    "Verif.Whole.C153_method_partial",
    "Verif.Whole.C153_chain_property",
    "Verif.Whole.C153_chain_method_partial",
    "Verif.Whole.C153_false_chain_with_interfaces"
   ],
   "note": "Proved for properties, and for methods if neither the class nor a class above it implements an interface; one type before the operator, no trait called like it. With interfaces it is false: C153_false_chain_with_interfaces."
  },
  {
   "property": "C154",
   "status": "partial",
   "theorems": [
    "Verif.Whole.C154_method_partial",
    "Verif.Whole.C154_chain_partial",
    "Verif.Whole.C154_false_chain_with_interfaces"
   ],
   "note": "Proved if neither the class nor a class above it implements an interface; one type before the operator, no trait called like it. With interfaces it is false: C154_false_chain_with_interfaces."
  },
  {
   "property": "C155",
   "status": "partial",
   "theorems": [
    "Verif.Whole.C155_definition_partial",
    "Verif.Whole.C155_hover_partial",
    "Verif.Whole.C155_chain_partial",
    "Verif.Whole.C155_false_case",
    "Verif.Whole.C155_signatures_partial",
    "Verif.Whole.C155_types_partial",
    "Verif.Whole.C155_call_partial",
    "Verif.Whole.C155_static_call_partial",
    "Verif.Whole.C155_chain_signatures_partial"
   ],
   "note": "Proved for go to definition, hovering, signatures and the types of calls if neither the class nor a class above it implements an interface, the overriding and the overridden method are written in the same case, there is one type before the operator and (for go to definition and hovering) no trait is called like it. The signatures are shown once for each type before the operator. With names in different case it is false: C155_false_case; with interfaces see C152_false_chain_with_interfaces."
  }
 ]
}