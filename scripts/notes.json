{
 "C01": {
  "status": "proved",
  "note": "For every list of values of the seven primitive kinds, any length, any trailing bytes. Lengths below 2^63 (every Go string)."
 },
 "C02": {
  "status": "partial",
  "note": "Full round trip for classes, interfaces, traits, properties, constants, defines, global variables; for functions and methods all but parameter descriptions; for class constants all but the visibility. The full claim is false of the code: negations proved (class-constant visibility is lost, parameter descriptions are lost)."
 },
 "C03": {
  "status": "proved",
  "note": "For every symbol kind, every record and every strict prefix. none is a Go panic (slice bounds)."
 },
 "C04": {
  "status": "proved",
  "note": "Both back ends refine Key -> Option Value over every operation history. The combined reader of two stores is covered by C04_combined_get."
 },
 "C05": {
  "status": "proved",
  "note": "A batch whose function returns an error is discarded, a successful one is the sequence of its operations, for both back ends. Extra finding proved as negation: writes made directly to the in-memory store while a batch is open are lost (C05_false_memory_direct_write_lost); for goleveldb they survive."
 },
 "C06": {
  "status": "proved",
  "note": "Exact, sorted, duplicate-free and stoppable for both back ends. Extra finding: the combined reader over two stores delivers a key twice (C06_false_combined_exactly_once)."
 },
 "C07": {
  "status": "partial",
  "note": "Exact lookup for every kind after every history of index/delete/restart/crash operations, any names without NUL. Class constants are looked up by prefix without terminator: the full claim is false for them (negation C07_false_classConst_prefix)."
 },
 "C08": {
  "status": "partial",
  "note": "Invariant over every history: found iff declared in the latest version of a live file, with the last declaration winning inside one file. The unqualified claim is false: two declarations with one key in one file, and the same class constant in two files (negations proved)."
 },
 "C09": {
  "status": "partial",
  "note": "Proved for all nine symbol kinds, every keyword, filter and limit. False for namespaces (negation proved): the namespace search never checks that the namespace still exists."
 },
 "C10": {
  "status": "proved",
  "note": "Deletion in any reachable state: the file's symbols are gone, and every other file's lookups are unchanged."
 },
 "C11": {
  "status": "partial",
  "note": "DeleteFolder removes exactly the files whose URI starts with the folder text; with a trailing slash that is the property. Without it sibling folders sharing the prefix are removed too (negation proved)."
 },
 "C12": {
  "status": "partial",
  "note": "In a synchronised state the unchanged file is skipped and a changed one re-indexed. With the stale snapshot of hashes kept after a pass, returning to an earlier content is wrongly skipped (negation proved)."
 },
 "C13": {
  "status": "proved",
  "note": "Every state reached by a history, every list of visited files: exactly the unvisited synced files are removed, and the result answers every lookup as a fresh index of the visited files."
 },
 "C14": {
  "status": "partial",
  "note": "Re-indexing after a crash at any of the durable-write boundaries gives the latest symbols if the crashed version kept every symbol of the previous one; crashes before the first write or after the last are atomic in general. Otherwise stale symbols survive for ever (negation proved)."
 },
 "C15": {
  "status": "partial",
  "note": "Every search kind with a limit of at least one: at most n results, a prefix of the unlimited result, complete only if nothing was left out. False (negations proved) for limit 0, for class searches with a namespace, and for class constants and properties with an empty keyword."
 },
 "C16": {
  "status": "partial",
  "note": "All nine kinds, non-empty keywords, with and without a namespace. False (negations proved) for methods with an empty keyword and for class searches with a namespace (case-sensitive)."
 },
 "C18": {
  "status": "partial",
  "note": "Exact for every history with files inside the workspace root and every filter without false negatives. False for files outside the workspace (negation proved)."
 },
 "C19": {
  "status": "proved",
  "note": "Restart at any point of any history leaves every reference search unchanged."
 },
 "C20": {
  "status": "partial",
  "note": "Round trip and injectivity for URIs under the root; false outside the root and for nested roots (negations proved)."
 },
 "C48": {
  "status": "proved",
  "note": "For every history and any depth: offered below a level iff the namespace has such a level with a matching word (declared in a current file for completeness, in some indexed version for soundness, see C09). Extra finding: an empty keyword lists a nested namespace once per level (negation proved)."
 },
 "C51": {
  "status": "partial",
  "note": "Filter, namespace and class scope are exact for every kind; the word matched is a word of the symbol's name in some indexed version. That it is a word of the current name is false (negation proved): after a rename that only changes case the old words still find it."
 },
 "C17": {
  "status": "partial",
  "note": "Head, no duplicates and contiguity for every byte string; totality for every name of valid UTF-8. Totality is false in general (negation proved): an upper-case letter, an undecodable byte and a lower-case letter make it panic."
 },
 "C52": {
  "status": "proved",
  "note": "For every valid name, any classification of characters and any position."
 },
 "C21": {
  "status": "partial",
  "note": "Line table exact for every text in which CR occurs only in CRLF, whatever other bytes (also undecodable ones); mapping an offset to its line for every text. False for lone CR (negation C21_false_lone_cr): the next line is recorded as starting at the CR."
 },
 "C22": {
  "status": "partial",
  "note": "Round trip for every offset whose line is ASCII before it; agreement with the editor's position for the same case without lone CR. False otherwise: positions are produced in bytes and read in characters (C22_false_multibyte, C22_false_reported_position). Positions after the last line: C22_line_past_end."
 },
 "C23": {
  "status": "partial",
  "note": "For every sequence of full and incremental changes on texts without lone CR and without characters beyond U+FFFF; the editor's side is specified on character lists with UTF-16 positions. The full claim is false: C23_false_astral, C23_false_lone_cr. C23_false_past_end: positions behind the last line."
 },
 "C24": {
  "status": "partial",
  "note": "Round trip for every base name and array depth; the exact set of texts on which parsing panics (a single ] before the suffixes) and the negations C24_false_panic, C24_false_no_base."
 },
 "C25": {
  "status": "proved",
  "note": "For every sequence of additions and merges: set of names, order of first appearance, first type of each name kept, idempotent merge."
 },
 "C26": {
  "status": "partial",
  "note": "Exact resolution for every table and name (C26_resolution); agreement with PHP's rules except for names with a leading backslash that match an alias and aliases that differ in case (negations proved)."
 },
 "C27": {
  "status": "partial",
  "note": "Agreement with PHP's rules when the qualified name does not start with an alias and the global name is not shadowed; the claim itself is false (C27_false_rest_dropped): the remaining parts are dropped."
 },
 "C28": {
  "status": "proved",
  "note": "C28_last_block_before for ordered tables, C28_file for the tables of every file. C28_false_function_calls: function calls do not use this table but the last one of the file."
 },
 "C49": {
  "status": "partial",
  "note": "Place and text for every list of top-level nodes. As a valid place for the name completed the claim is false with braced namespaces and with several namespaces (negations)."
 },
 "C50": {
  "status": "proved",
  "note": "Total order, in-range test and range comparison for all positions."
 },
 "C53": {
  "status": "partial",
  "note": "For every file without fully qualified references; negations for fully qualified references and for different case."
 },
 "C54": {
  "status": "partial",
  "note": "Every type offered first under its name is printed; Foo|Foo[] loses Foo[] (negation)."
 },
 "C55": {
  "status": "partial",
  "note": "For unqualified non-empty words under explicit conditions on the import table; negations for shadowed names, words that start with an import's name, the empty word."
 },
 "C29": {
  "status": "partial",
  "note": "Methods (all classes, any hierarchy, any earlier use of the query) and all lookups of interfaces: proved terminating, with a bound independent of the state. Properties and constants: proved to terminate on acyclic hierarchies and proved to run for ever on every cycle of extends (C29_false_cycle), so the property as stated is false."
 },
 "C30": {
  "status": "partial",
  "note": "Soundness for every reachable state of a query; exactness and order for a new query; completeness whatever was asked before for properties and constants (C30_plain_any_state) and for the methods of classes without interfaces (C30_methods_any_state). False in general: the second question to a query about methods, traits that use traits, redeclared classes, properties of traits (C30_false_*). For the methods of classes without interfaces the exact answer and its order are proved whatever was asked before (C30_order_any_state_partial)."
 },
 "C31": {
  "status": "partial",
  "note": "Public members, static-only after Name::, self/static/parent exact, outside of the class exact for methods and properties. False: Foo::privateStatic from anywhere, private members of parents after $this->, protected members in the family, protected constants (C31_false_*)."
 },
 "C32": {
  "status": "partial",
  "note": "One entry per name, the first accessible one, every accessible name reported, nearest class of the lineage first; union types. False of names that differ in case (C32_false_case). Whatever was asked before, for classes without interfaces: C32_nearest_any_state_partial."
 },
 "C56": {
  "status": "partial",
  "note": "Exact for a new query and for repeating the search. False after a search for another keyword with the same query (C56_false_other_keyword); the handlers use one keyword per request."
 },
 "C33": {
  "status": "partial",
  "note": "Round trip and unambiguous framing for every sequence of messages shorter than 2^31 bytes. False of larger ones (C33_false_large: the reader rejects the length) and of empty messages (C33_false_empty)."
 },
 "C34": {
  "status": "proved",
  "note": "C34_read_iff characterises success of Read exactly (a run of header lines with a content length, then that many bytes); the other theorems are the individual rejections. bufio and UTF-8 white space of strings.TrimSpace are modelled for the byte sequences that TrimSpace strips."
 },
 "C35": {
  "status": "partial",
  "note": "Over every schedule of request goroutines and every behaviour of handlers: at most one reply, none for notifications, right id, no panic; exactly one when the handler has finished, unless the request is cancelled while it runs (C35_false_cancelled). With a detached context (what the server does for requests cancelled before they start) also exactly one. Write errors are part of C57."
 },
 "C36": {
  "status": "proved",
  "note": "Order, waiting for all earlier messages, at most one serial handler, a message whose predecessor is out of the way can be started until it is, no deadlock, bounded number of own steps. That handlers themselves return is an assumption on the environment (the step ret is always enabled)."
 },
 "C37": {
  "status": "partial",
  "note": "Distinct ids up to 2^64 calls, delivery to the right call at most once, for every schedule. The claim about responses nobody waits for is false: an unknown id, a second answer or a cancelled call stop the connection for ever (C37_false_*). If the other side only answers calls once and they are not cancelled meanwhile, the connection never stalls (C37_no_stall_partial)."
 },
 "C57": {
  "status": "partial",
  "note": "C57_frames and C57_progress hold for every schedule without failing writes; C57_received_partial adds the reader (messages below 2^31 bytes). After a failed write the stream is broken (C57_false_failed_write), which the statement excludes."
 },
 "C58": {
  "status": "partial",
  "note": "Exact characterisation of the panics of the dispatch: missing parameters of any method that has some (C58_false_missing_params). Otherwise no panic, the right method, one answer. Panics inside of the server's methods are not modelled here."
 },
 "C59": {
  "status": "partial",
  "note": "Numbers of 64 bits and non-empty strings come back as written; false of the empty string and of numbers with fraction or exponent (C59_false_*). Escapes inside JSON strings are not modelled."
 },
 "C38": {
  "status": "partial",
  "note": "Every request is answered and shutdown works in histories with at most one initialize; a second initialize is refused but keeps the lock, after which nothing of the life cycle is answered (C38_false_second_initialize); an initialize that is refused for naming no folder makes the correct one be refused (C38_false_single_file)."
 },
 "C39": {
  "status": "partial",
  "note": "A file is handled by the first folder whose text is a prefix of its own. The right folder is found if no folder is a textual prefix of a file outside it, and always if folders end in a slash. False otherwise (sibling folders, files outside, removal of an inner folder)."
 },
 "C40": {
  "status": "partial",
  "note": "For every schedule: bounded number of steps, clean-up after all files, no deadlock; every pass finishes if all file names decode. False otherwise: a pass with a file name that cannot be decoded never runs its clean-up (C40_undecodable_never_finishes)."
 },
 "C41": {
  "status": "partial",
  "note": "For every legal history with arbitrary requests, disk writes and notifications in between: if at each open the server's text for the file is the one sent, the server's text is the editor's from then on. The text sent with open is ignored (C41_false_open_text), and a file not on disk is not known (C41_false_unsaved_file)."
 },
 "C42": {
  "status": "partial",
  "note": "The index describes the disk after the notification unless an earlier request left a copy in memory (C42_false_copy_in_memory); a second notification is always effective; open documents are not touched."
 },
 "C60": {
  "status": "partial",
  "note": "For every history: an index of an older release is emptied, a current one is kept, and one upgrade empties once. The completion index is not cleared (C60_false_namespaces)."
 },
 "C61": {
  "status": "partial",
  "note": "No folder is served twice; the files of folders added once and not removed are served. A removed folder cannot be added again (C61_false_add_again)."
 },
 "C62": {
  "status": "partial",
  "note": "Closing a saved document that the server knew when it was opened leaves the index describing the disk. False with unsaved changes (C62_false_unsaved) and for documents not on disk when opened: their symbols are lost and no notification brings them back (C62_false_lost)."
 },
 "C43": {
  "status": "proved",
  "note": "The outline of every symbol tree shows exactly the declarations, once, in order, unlisted constructs lifted."
 },
 "C44": {
  "status": "proved",
  "note": "The calls of the visitor are exactly the pre-order walk with refused subtrees left out and cut at the first stop; the order is determined by the positions in the tree."
 },
 "C45": {
  "status": "partial",
  "note": "Lookup and the offered variables are proved for every sequence of recordings. A declaration without later use is always reported; the converse needs that uses are recorded in text order (C45_false_break). C45_analysed_partial: the condition holds in every scope of every analysed document (Parsed syntax trees)."
 },
 "C46": {
  "status": "partial",
  "note": "Exact for every cursor in the list: the number of commas at or before it; this is the argument around the cursor unless the cursor is directly in front of a comma (C46_false_end_of_argument)."
 },
 "C47": {
  "status": "partial",
  "note": "Nothing is lost or duplicated. The order by score is false (C47_false_order); only lists already in increasing order stay ordered."
 },
 "C63": {
  "status": "proved",
  "note": "C63_analysed and C63_analysed_closest for every analysed document whose syntax tree is Parsed (what the parser, which is not in the repository, is trusted to deliver); from C63_symbol_at and C63_closest for every symbol tree in the order of the text."
 },
 "C64": {
  "status": "partial",
  "note": "Inside of classes without nested anonymous classes. False outside of classes and after an anonymous class. C64_analysed...: the conditions hold for every analysed document (Parsed syntax trees)."
 },
 "C65": {
  "status": "partial",
  "note": "For calls that are not inside the arguments of an anonymous class (C65_false_anonymous_class). C65_analysed...: the conditions hold for every analysed document (Parsed syntax trees)."
 },
 "C66": {
  "status": "proved",
  "note": "C66_analysed for every analysed document whose syntax tree is Parsed; C66_scope for every tree of scopes, C66_innermost if neighbouring scopes do not overlap."
 },
 "C70": {
  "status": "partial",
  "note": "For all syntax trees whose tokens are one after the other and whose phrases have the parts the analysis relies on (Parsed; the parser is not part of the repository). Properties and constants of classes are out of order (C70_false_order)."
 },
 "C67": {
  "status": "partial",
  "note": "For all syntax trees in which expressions are in the places the analysis looks at (Supported, a decidable condition on the tree: FindSpec.lean). False in general: variables in `$t += $x` with spaces, `??`, `$x[0]->m()`, keys of foreach, `list()`, `instanceof $c` and `use(&$x)` are lost or misnamed, and a used variable is reported as unused (C67_false_lost, C67_false_unused, C67_false_reference)."
 },
 "C68": {
  "status": "partial",
  "note": "For all syntax trees in which expressions are in the places the analysis looks at (Supported, a decidable condition on the tree: FindSpec.lean). Names that are native types or aliases are excluded. False in general: `define` in a namespace, `define` as a value, functions called like a type (C68_false_define, C68_false_value, C68_false_native)."
 },
 "C69": {
  "status": "partial",
  "note": "For all syntax trees in which expressions are in the places the analysis looks at (Supported, a decidable condition on the tree: FindSpec.lean). That the member is found with name and place holds always under Supported; that its class is right holds when no other class is declared inside the class. False otherwise: C69_false_anonymous."
 },
 "C71": {
  "status": "partial",
  "note": "C71_sound for all syntax trees: each member is written in a tag of a comment that ends on the line before a class of that name. C71_found for comments and classes at the top of a Supported document with only tokens in between. False in general: the comment of another declaration on its line is taken (C71_false_other), a comment on the same line or before an empty line is not (C71_false_line), and `@method` without a name makes a nameless method (C71_false_nameless)."
 },
 "C72": {
  "status": "partial",
  "note": "C72_sound for all Parsed trees: each edit covers a variable with that name that belongs to the function found. C72_function and C72_complete: for cursors on variables in plain code of a Supported document. False with the cursor on a parameter (nothing is renamed), across closures with `use`, for variables that the analysis loses, and in constructors (two edits for one place)."
 },
 "C73": {
  "status": "proved",
  "note": "For all syntax trees, without conditions. Accesses and calls: the symbol has the range and text of the name in that access or call (Node.uses, a small specification by sort); an access still without a name has an empty place. Members from doc comments: C71_sound. Names and classes of declarations: C68, C69."
 },
 "C74": {
  "status": "partial",
  "note": "C74_nothing_made_up holds for every program and index. C74_known_partial and C74_new_partial: for programs that do not use the value of an assignment and for expressions in which no class occurs at two array depths; both conditions are needed (negations). The index is a parameter; what it answers is C30-C32."
 },
 "C75": {
  "status": "partial",
  "note": "The answers are stable, which is the opposite of what a user wants after another file changes: C75_false_stale."
 },
 "C76": {
  "status": "partial",
  "note": "C76_own_versions holds in every schedule. The rest is proved for schedules in which handlers and timer functions are not interrupted; that the code misses deprecations when two documents are opened together, shows an old version when a slow timer function ends late, and does not follow the index, is proved as negations."
 },
 "C77": {
  "status": "partial",
  "note": "Exact for names, functions and constants (C77_names_partial), and for a class's own constants if no longer name starts the same (C77_constants_partial); sound for everything but class constants; equal to what go to definition finds for member accesses with a new query. The rest is false of the code: class constants are looked up by prefix and not in parents, traits are never marked, new does not look at the constructor, and a use can be missed after another one because a whole document shares one query."
 },
 "C78": {
  "status": "partial",
  "note": "Member accesses are sound for all types and states; the nearest declaration is proved for objects of one class; names are exact under conditions that are needed (negations: alias resolved twice, interfaces before ::, case of interface names)."
 },
 "C79": {
  "status": "proved",
  "note": "Over all child lists of the declarations; at most one visibility keyword, as in PHP."
 },
 "C80": {
  "status": "proved",
  "note": "Names, order, values and types; the texts of values are those of the document (C80_value_text). What declared types stand for is C86."
 },
 "C81": {
  "status": "proved",
  "note": "The doc comment is the last one before the declaration, if it ends on the line above; C87 is about that rule."
 },
 "C82": {
  "status": "partial",
  "note": "Exact for every text (C82_named) and by the rules of PHP (C82_php); self[] is wrong (negation)."
 },
 "C83": {
  "status": "partial",
  "note": "Proved for classes: parent, interfaces, traits, name. False for interfaces: the bases are not resolved and fully qualified ones are dropped (negations)."
 },
 "C84": {
  "status": "partial",
  "note": "Proved for use declarations and groups of one kind. False: a group that mixes kinds makes everything a class, and the place of an import in a group is that of the alias only (negations)."
 },
 "C85": {
  "status": "partial",
  "note": "Proved for class constants and for constants whose name is not that of a native type; for those the namespace is dropped (negation)."
 },
 "C86": {
  "status": "partial",
  "note": "Proved for parameters with a type that is written as a name. False for return types, nullable types and self (negations)."
 },
 "C87": {
  "status": "partial",
  "note": "Proved: a doc comment applies exactly to what begins on the line after its end. False for one on the same line, which applies to the next line's declaration instead (negation)."
 },
 "C88": {
  "status": "partial",
  "note": "Exact for names, calls of functions and constants (C88_names_partial), for new with inherited constructors (C88_new), and equal to go to definition for members (C88_same with C78). False: names of interfaces are compared with case (negation)."
 },
 "C89": {
  "status": "partial",
  "note": "Exact for new (C89_new), for methods of an object or class of one class (C89_methods_partial), of an object of one interface (C89_interface_methods_partial) and for functions under the import table at the end of the document (C89_functions_partial). False: the last namespace of the file is used for all calls, methods of traits are not described, and a method can be described twice (negations)."
 },
 "C90": {
  "status": "proved",
  "note": "Only declared symbols for every word and limit (C90_declared); everything that matches a plain word if fewer match than the limit allows (C90_all); for any word the list consists of the results of the searches (C90_few)."
 },
 "C91": {
  "status": "partial",
  "note": "For plain words, lists of one kind that are not marked are complete for every limit (C91_classes_partial, C91_interfaces_partial, C91_traits_partial). False: the flag of lists of several kinds is that of the last search, so a list that leaves classes out is not marked (C91_false_not_marked, C91_false_functions_decide)."
 },
 "C92": {
  "status": "proved",
  "note": "Every proposal right for all types (C92_right), none twice (C92_once), complete and nearest for an expression of one class (C92_class) or one interface (C92_interface), outside of the class the rule is: public (C92_outside). Class and interface names are different (Distinct, Apart); names have no colon (Names)."
 },
 "C93": {
  "status": "proved",
  "note": "C93_right, C93_once, C93_class, C93_interface, under the conditions of C92."
 },
 "C94": {
  "status": "partial",
  "note": "True of methods and constants; what is inserted for a property is its name without the dollar sign (C94_text_partial). False of properties: `A::` and accepting `$s` gives `A::s`, a constant (C94_false_property)."
 },
 "C95": {
  "status": "partial",
  "note": "False: completion looks up classes and interfaces only, so nothing is offered (C95_trait_partial, C95_false_own), although go to definition finds the members of the trait."
 },
 "C96": {
  "status": "proved",
  "note": "C96_exact, C96_once, C96_written; the tables are those of the model of the analysis (C67, C73), the syntax tree is as the parser delivers it (Parsed)."
 },
 "C97": {
  "status": "proved",
  "note": "C97_word, through a model of the Go library's regular expression search for this pattern (leftmost-first)."
 },
 "C98": {
  "status": "partial",
  "note": "True if no character on the line before the cursor is beyond U+00FF (C98_name_partial). False otherwise: the class `\\x80-\\xff` of the regular expression ranges over code points, not bytes, so after `Wałęsa` completion looks for `sa` (C98_false_letters)."
 },
 "C99": {
  "status": "proved",
  "note": "C99_class_use, C99_self. The types of a name are those that the analysis gives to it (C26); the tokens of a tree come one after the other; the files are inside the workspace (C18)."
 },
 "C100": {
  "status": "partial",
  "note": "C100_class_partial: true for classes and interfaces in the first namespace block of a file, with the cursor behind the first letter. False: with the cursor before the first letter (C100_false_start_of_name), for the declaration of a trait (C100_false_trait), and in a further namespace block of a file (C100_false_second_namespace)."
 },
 "C101": {
  "status": "partial",
  "note": "Proved for all members of that name, whatever their class: C101_method_declaration, C101_constant_declaration, C101_method_use, C101_property_use, C101_constant_use; for declarations of properties without default value (C101_property_declaration_partial). False: members of other classes are listed (C101_false_other_class), the declaration of a property with a default value finds nothing (C101_false_default_value), `$a->$b` counts as a use of a property `$b` (C101_false_dynamic_name), methods called in another case are not found (C101_false_case)."
 },
 "C102": {
  "status": "partial",
  "note": "C102_call: exactly the declarations and calls of the functions that the name may stand for; C102_declaration_partial: for a declaration in a file without namespace. False: a call is listed twice (C102_false_twice), a function of a further namespace block (C102_false_second_namespace), calls of another function (C102_false_other_function)."
 },
 "C103": {
  "status": "proved",
  "note": "C103_lookups_as_if_in_turn, C103_no_call_panics, C103_dies_at_any_moment. The steps of a call are its reads and writes of the shared databases and of the map of filters, each atomic in its library. Names and URIs as in C11 and C16."
 },
 "C104": {
  "status": "proved",
  "note": "C104_as_if_in_turn, C104_pass_order_does_not_matter."
 },
 "C105": {
  "status": "proved",
  "note": "C105_references_meanwhile, provided that the membership filter forgets no inserted key (C18)."
 },
 "C106": {
  "status": "partial",
  "note": "C106_one_version_partial: calls for one file do not overlap; C107 says what holds when they do. False otherwise: C106_false_stale_symbol, both calls look for what there is to remove before either writes; symbols of the earlier version stay for ever."
 },
 "C107": {
  "status": "proved",
  "note": "C107_nothing_missing_nothing_invented, C107_no_call_panics. That the lists may hold symbols of an earlier version is C106."
 },
 "C108": {
  "status": "partial",
  "note": "C108_symbols: proved for symbols. C108_namespaces_partial: for namespaces whose name begins with the word in the same case. False for a word in another case, for which a namespace is offered as well (C108_false_case). That the editor replaces the part behind the last `\\` is not modelled."
 },
 "C109": {
  "status": "proved",
  "note": "C109_editor_text: the text in memory; C109_change_applied: a change is applied to the editor's text. C109_needs_quiet: without the restriction it is false. The handlers run one after the other (C36); SyncDocument is one step here, its own interleavings are C103-C107; a text stands for its hash."
 },
 "C110": {
  "status": "proved",
  "note": "C110_index. C110_needs_quiet: without the restriction it is false."
 },
 "C111": {
  "status": "proved",
  "note": "C111_exclusive, C111_no_deadlock, C111_bounded. The locks of the maps are inside single steps; the lock that Load takes for the parser is not modelled."
 },
 "C112": {
  "status": "proved",
  "note": "C112_workers. C112_needs_no_request: with a hover for the file, an incomplete record can be written, with the hash of the whole text, and a later pass leaves it as it is."
 },
 "C113": {
  "status": "proved",
  "note": "C113_reads (exact), C113_drive. C113_needs_plain: with `+` another file is read, with `%` none or another, with `:` the path becomes a Windows path. The editor's URI is that of VS Code: all bytes but letters, digits, `-_.~` and `/` as %XX. net/url is transcribed from the Go library; URIs with a host are not modelled."
 },
 "C114": {
  "status": "proved",
  "note": "C114_same_uri (exact), C114_read_back (exact), C114_distinct. C114_needs_no_space: a file that is indexed under another URI than the editor's. C114_needs_no_drive: with a drive no URI of a file begins with the folder's URI as VS Code writes it, and none is indexed."
 },
 "C115": {
  "status": "proved",
  "note": "C115_watched. C115_needs_plain: a file with parentheses in its name is indexed under two URIs, a report for a name with `%` fails (and the goroutine that reported it waits for ever), one for a name with `?` reaches another file."
 },
 "C116": {
  "status": "proved",
  "note": "C116_no_panic: making the name panics exactly for URIs without a path, such as `file://`. C116_files, C116_component, C116_distinct. MD5 is a parameter of which only the form of its result is assumed."
 },
 "C117": {
  "status": "proved",
  "note": "C117_function, C117_method. C117_needs_plain: `&`, `...`, `abstract`/`final` and declared return types are not shown (the statement does not promise them). The tree, the strip pattern and the Markdown converter are parameters; array depths have to fit an int, texts 2^63 bytes."
 },
 "C118": {
  "status": "proved",
  "note": "C118_function, C118_method, C118_places. C118_needs_no_parameter_text: the text of a `@param` tag never reaches the signature (descriptions of parameters are not stored). C118_needs_declared: a default value that is written but empty."
 },
 "C119": {
  "status": "proved",
  "note": "C119_class, C119_interface, C119_trait, C119_property, C119_class_constant, C119_constant. C119_needs_relative_bases: bases of an interface with a leading backslash are dropped. Names such as `boolean`, `integer` and those ending in `]` are excluded (they are no class names)."
 },
 "C120": {
  "status": "proved",
  "note": "C120_function, C120_method, C120_class, C120_members, C120_constant. Traits and global variables have no such tag. Which uses are marked is C77."
 },
 "C121": {
  "status": "proved",
  "note": "C121_errors, C121_fails_iff. The parser is a parameter (any tree). C121_needs_placed: an error without any token stops the server. Positions are those of C22."
 },
 "C122": {
  "status": "proved",
  "note": "C122_hints (all calls of a document), C122_arguments (which expressions), C122_active (agreement with signature help). Which declarations a call refers to is C89, the names of parameters are C79; both are parameters here. C122_needs_expressions: a doc comment between the parentheses counts as an argument."
 },
 "C123": {
  "status": "proved",
  "note": "C123_names, C123_variables, C123_members. The symbol under the cursor (C63) and its scope are parameters. The lists themselves are C90-C96."
 },
 "C124": {
  "status": "proved",
  "note": "C124_expression, C124_interfaces, C124_traits, C124_variables, C124_static, C124_colons, C124_identifier, C124_arrow, C124_class. The symbol under the cursor (C63) and its scope are parameters. C124_needs_place: at names in other places nothing is offered: the name of a call with parentheses, a name after `use` of a namespace."
 },
 "C125": {
  "status": "proved",
  "note": "C125_lookups, C125_names, C125_functions, C125_constants, C125_members, C125_methods. Joins the model of the index (C07-C14) with that of the queries (C29-C32, C78): what the queries take as lists of declarations is read off the bytes of the store. The types of the object and the name that is accessed are those of the symbol under the cursor (C58-C63)."
 },
 "C126": {
  "status": "proved",
  "note": "C126_names, C126_functions, C126_function_shown. Joins C125 (index and queries) with C117 (from the syntax tree of a declaration to the text). Rendering of markdown is a parameter; the syntax tree is given (C17-C20). C126_class_shown, C126_interface_shown, C126_trait_shown, C126_constant_shown and C126_define_shown follow a declaration from the tree of its file to the text of the hover."
 },
 "C127": {
  "status": "proved",
  "note": "C127_marks, C127_function_source. Joins the index (C07-C14), the queries and the marks (C77), and the analyser's record of `@deprecated` (C120). That every use of a deprecated method or property is marked is false (C77_false_second) and not claimed; traits are never marked (C77_false_trait)."
 },
 "C128": {
  "status": "proved",
  "note": "C128_listed, C128_empty, C128_matching. One counter is shared by all searches of a request: when it has reached 1000 each further search of each folder still adds one entry, hence the bound. The index of words is not cleaned up, hence \"or an earlier version\" (C51)."
 },
 "C129": {
  "status": "proved",
  "note": "C129_open, C129_equals_fresh_index. Assumes that the content hash tells versions of a file apart and that crashes are as in C14. C129_needs_bundled: a bundled file that a later release no longer has stays in the index."
 },
 "C130": {
  "status": "proved",
  "note": "C130_functions, C130_function_shown, C130_methods, C130_new, C130_method_signature. For methods and constructors: class names are unique, classes and interfaces are called differently, methods of this name are written alike. That the last import table is used for every call of the file is C89_false_namespace."
 },
 "C131": {
  "status": "proved",
  "note": "C131_arrow_right, C131_arrow_class, C131_scope_right, C131_scope_class, C131_ends. The names of classes are unique and differ from those of interfaces, no member has a colon in its name. The class constants are public, since their visibility is not stored (C02). Properties of traits are not offered and a type that is a trait offers nothing (C95); what a property inserts after `::` is C94."
 },
 "C132": {
  "status": "proved",
  "note": "C132_definition, C132_hover, C132_deprecated, C132_signatures, C132_arrow, C132_scope, C132_history. That the condition is needed: C132_needs_nocycle (go to definition on a property never ends), C132_needs_nocycle_scope (completion after `::` never ends). Properties with an empty name are excluded in C132_arrow: their label would be sliced out of range."
 },
 "C133": {
  "status": "proved",
  "note": "C133_nothing_made_up and C133_known, on top of C74. `Declared` and `Stated` in Whole/TypesSpec.lean say what the current files declare. The names of classes and interfaces are unique. Inherited members are left out of the second part because they are lost on the second question of a request (C30_false_second_call). That calls in other namespaces than the last of the file are read wrongly is the finding C89_false_namespace."
 },
 "C134": {
  "status": "proved",
  "note": "C134_found for the walk, C134_open for the whole way from the directory to the index, on top of C113, C114 and C129. The files are indexed one after the other here; C104 and C107 are about several at a time. C134_needs_folder: opening a folder that does not exist ends the server."
 },
 "C135": {
  "status": "proved",
  "note": "C135_declared and C135_file for a file, C135_known for the index after any history, C135_in_expressions for the types of expressions (it says what the global variables in C133 are). C135_needs_last_statement: types of earlier statements in the same file are forgotten. C135_no_description: the text of a @global tag is dropped. That the variable copied from the global variable shares its slice of types is not modelled."
 },
 "C136": {
  "status": "proved",
  "note": "C136_refers for the name, C136_leads for go to definition on classes, interfaces and traits, C136_function and C136_constant for the others (C90, C55 and C125 together). C136_needs_not_hidden: with use Lib\\Foo, completing App\\Foo leads to Lib\\Foo. C136_needs_no_global: completing App\\hide leads to the global function hide if there is one. Where the use statement is inserted is C49."
 },
 "C137": {
  "status": "proved",
  "note": "C137_names and C137_members: every item speaks about a live declaration, and nothing of what is said is lost in the index. C137_class, C137_interface, C137_trait, C137_constant, C137_define, C137_function, C137_method, C137_property and C137_class_constant: what is said, from the tree of the declaration. C137_import: the announced text is the inserted one. C137_needs_one_segment: for a word with a namespace the import of the namespace is announced. The class that a member was found in is a parameter. The conversion of HTML to Markdown is external."
 },
 "C138": {
  "status": "proved",
  "note": "For every history of the store: the lookups run on the decoded store contents. The kind of the scope of a member is recovered from its name (simplification noted at `scopeNamed`): it is exact unless a class, interface or trait share their name."
 },
 "C139": {
  "status": "proved",
  "note": "The text, the order of the recorded expressions and that no class is shown twice are proved for all programs. Which types are missed (values of assignments used as expressions, a class at two array depths) is the subject of C74."
 },
 "C140": {
  "status": "proved",
  "note": "For all trees with namespaces at the outer level; C140_needs_orderly shows that a namespace inside another one stays in force. The namespace is put in front of names that are not written like a type and have no backslash in front (C68_false_native has the others). Constants of define get the namespace as well, which PHP would not do (C68_false_define). An anonymous class that has no written name has the one made from its place."
 },
 "C141": {
  "status": "proved",
  "note": "Composes the analysis (C68, C140), the index (C08) and the queries (C125). The model of the analysis and the model of the index each have their own symbols; that they are the same objects of the code is the definition OfText. The conditions of C125 (no import with the first part of the name as alias) and of C68 remain."
 },
 "C142": {
  "status": "proved",
  "note": "Relative to the class that the analysis takes for the enclosing one (see C69_false_anonymous for code behind an anonymous class). The conditions of C26 on names remain. Other spellings (`SELF`), and `self` behind `new` or as a type, are taken for classes of the namespace: C142_needs_lower_case, C142_needs_no_self."
 },
 "C143": {
  "status": "proved",
  "note": "Composes C27 and C141; C27's condition that one of the candidates exists is not needed, since otherwise nothing is written under either name. The other conditions of C27 are the structure PlainUse; without them the claim is false (C27_false_rest_dropped, C27_false_global_first, C27_false_fully_qualified)."
 },
 "C144": {
  "status": "proved",
  "note": "The limits of the statement are needed: C144_needs_above (a property declared below the constructor gets nothing), C144_needs_no_class_inside (behind an anonymous class the assignment goes to the properties of that class), C144_needs_written ($this->$a = … gives its type to $a). The name read is the one of the model of the whole analysis (readMemberName_scan)."
 },
 "C145": {
  "status": "partial",
  "note": "False in general: C145_false_default (class constants in default values of parameters and in the values of constants are not looked at) and C145_false_return (nor the names an interface extends and return types). Proved for all code made of the constructs in UsesSupported (Analyser/FindSpec.lean): functions, classes, methods, closures, blocks, assignments, calls, accesses, creations, operators and more, nested to any depth."
 },
 "C146": {
  "status": "proved",
  "note": "Composition of C99-C102 (the index), C145 and C69 (what is found), C73, C71 and C140 (what is a symbol). That the symbols of the two models are the same objects is the hypothesis Texts. For the names of classes see C148. Declarations with the cursor on a property: C101_property_declaration_partial."
 },
 "C147": {
  "status": "partial",
  "note": "No watcher is asked for twice: in full (C147_once). The rest holds for histories in which no URI is the beginning of another's (C147_watched_partial) and is false otherwise (C147_false_inner, C147_false_not_a_folder): removeView finds a store by prefix but takes back the watcher of the URI it was given."
 },
 "C148": {
  "status": "proved",
  "note": "Composition of C99, C100 (the index), C145, C68, C140 (the text) and C142 (what names stand for). That the symbols of the models are the same objects, with the types that the model of names gives them at their place, are the hypotheses Texts and Typed. self, static and $this before :: are not listed (C99_self). Names that an interface extends and return types are no symbols, so they are never listed (C145_false_return); names in doc comments are covered by soundness only."
 },
 "C149": {
  "status": "proved",
  "note": "Composition of C81 and C144 (what the analysis records) with C133 (what the index answers); C149_static_property and C149_static_method are the same after ::. That the types in the index are the ones the analysis recorded is the hypothesis SameTypes. Return types declared in code are not recorded at all (C86_false_return_type). C149_needs_static: a method that is not static has no type after a class name. C149_needs_last_table: names of functions are looked up with the imports at the end of the file, not at the call."
 },
 "C150": {
  "status": "partial",
  "note": "Properties, and methods of classes without interfaces above them: for every state of the request. Other methods: only for the first question of a request; C150_false_second_question shows an inherited method that is lost if the parent's method was asked for before, because both classes implement the same interface. Classes and interfaces must have different names (ClassesApart)."
 },
 "C151": {
  "status": "proved",
  "note": "By induction over the chain (Chain). At each link, one declaration of that name above each possible class, or none; for methods the class implements no interface (with one, C150_false_second_question), and classes, interfaces and traits have different names. Names of types only, not the array levels. C151_call composes the last link with the text of the doc comment."
 },
 "C152": {
  "status": "partial",
  "note": "Proved for properties, and for methods if neither the class nor a class above it implements an interface; one type before the operator, no trait called like it. With interfaces it is false: C152_false_chain_with_interfaces ($a->m()->m() leads nowhere because the query remembers the interface as searched)."
 },
 "C153": {
  "status": "partial",
  "note": "Proved for properties, and for methods if neither the class nor a class above it implements an interface; one type before the operator, no trait called like it. With interfaces it is false: C153_false_chain_with_interfaces."
 },
 "C154": {
  "status": "partial",
  "note": "Proved if neither the class nor a class above it implements an interface; one type before the operator, no trait called like it. With interfaces it is false: C154_false_chain_with_interfaces."
 },
 "C155": {
  "status": "partial",
  "note": "Proved for go to definition, hovering, signatures and the types of calls if neither the class nor a class above it implements an interface, the overriding and the overridden method are written in the same case, there is one type before the operator and (for go to definition and hovering) no trait is called like it. The signatures are shown once for each type before the operator. With names in different case it is false: C155_false_case; with interfaces see C152_false_chain_with_interfaces."
 }
}