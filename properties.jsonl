{"id": "C01", "title": "Primitive encoding round trip", "statement": "Any sequence of integers, strings, booleans, positions and locations written with the index encoder is read back by the decoder, in the same order, as exactly the same values, consuming exactly the bytes that were written.", "quantifier": "every list of typed values (64-bit integers, byte strings, booleans, positions, locations) of any length, followed by any further bytes", "why_tests_cant": "the value space and the sequence length are unbounded; a test can sample only a few integers and strings, and cannot rule out a length whose prefix is misread", "anchors": ["analysis/storage/encoding.go: Encoder.WriteInt, WriteBytes, WriteString, WriteBool, WritePosition, WriteLocation; Decoder.ReadInt, ReadBytes, ReadString, ReadBool, ReadPosition, ReadLocation"]}
{"id": "C02", "title": "Stored symbols come back unchanged", "statement": "Every class, interface, trait, function, method, property, constant, define, class constant and global variable that is saved to the index is loaded again with the same name, scope, modifiers, types, parameters, descriptions and deprecation information.", "quantifier": "every value of every symbol kind, with any number of parameters, interfaces, used traits and types", "why_tests_cant": "nested variable-length fields: a field dropped or read in the wrong order shows only for particular combinations of values", "anchors": ["analysis/class.go: Class.Serialise, ReadClass", "analysis/interface.go", "analysis/trait.go", "analysis/function.go", "analysis/method.go", "analysis/property.go", "analysis/parameter.go", "analysis/const.go", "analysis/define.go", "analysis/classConst.go: ClassConst.Serialise, ReadClassConst", "analysis/globalVariable.go", "analysis/phpDocComment.go: serialiseDeprecatedTag, deserialiseDeprecatedTag", "analysis/symbolType.go: Write, ReadTypeString, ReadTypeComposite"]}
{"id": "C03", "title": "Truncated records are never silently accepted", "statement": "If a stored symbol record is cut short at any byte, loading it fails; it never returns a symbol.", "quantifier": "every symbol record and every strict prefix of it", "why_tests_cant": "the number of cut points grows with the record and the record space is infinite", "anchors": ["analysis/storage/encoding.go: Decoder", "analysis/class.go: ReadClass", "analysis/method.go: ReadMethod"]}
{"id": "C04", "title": "The key-value store behaves as a map", "statement": "After any history of puts, deletes, clears and batches, reading a key returns the value of the latest put to that key that was not followed by a delete or clear, and reports not-found otherwise.", "quantifier": "every history of operations and every key", "why_tests_cant": "histories are unbounded", "anchors": ["analysis/storage/memory.go", "analysis/storage/goleveldb.go", "analysis/storage/main.go"]}
{"id": "C05", "title": "Batches are all-or-nothing", "statement": "A batch whose function reports an error leaves the store exactly as it was; a batch that succeeds has the effect of its operations in order, at once.", "quantifier": "every store state and every list of batched operations, with or without an error at any point", "why_tests_cant": "the error point ranges over every position of every batch", "anchors": ["analysis/storage/goleveldb.go: WriteBatch", "analysis/storage/memory.go: WriteBatch"]}
{"id": "C06", "title": "Prefix scans are exact, ordered and stoppable", "statement": "Streaming a prefix delivers exactly the entries whose key starts with the prefix, each once, in ascending byte order; when the consumer stops after the n-th entry, exactly the first n are delivered.", "quantifier": "every store content, prefix and stop point", "why_tests_cant": "all lookups of the server go through prefix scans over arbitrary byte keys", "anchors": ["analysis/storage/memory.go: PrefixStream", "analysis/storage/goleveldb.go: PrefixStream"]}
{"id": "C07", "title": "Lookup by name returns exactly the symbols with that name", "statement": "Looking up classes, interfaces, traits, functions, constants, defines, methods, properties, class constants or global variables by fully qualified name returns exactly the stored symbols of that kind with that name, never one of another kind or whose name merely starts with the requested name.", "quantifier": "every set of stored symbols, every name without a NUL byte", "why_tests_cant": "names form prefixes of each other in unboundedly many ways", "anchors": ["analysis/store.go: newEntry, KeySep, GetClasses, GetInterfaces, GetTraits, GetFunctions, GetConsts, GetDefines, GetMethods, GetProperties, GetClassConsts, GetGlobalVariables", "analysis/class.go: GetKey, GetClassFQNLowerCase", "analysis/classConst.go: GetKey"]}
{"id": "C08", "title": "The index equals the latest version of every file", "statement": "After any history of indexing and deleting files, a symbol is found by lookup if and only if it is declared in the most recently indexed version of some file that has not since been deleted.", "quantifier": "every history of index and delete operations over any files and contents", "why_tests_cant": "stale entries appear only after particular histories (rename, re-index, delete)", "anchors": ["analysis/store.go: SyncDocument, DeleteDocument, writeAllSymbols, indexDocumentSymbols, symbolDeletor"]}
{"id": "C09", "title": "Completion never offers a symbol that no longer exists", "statement": "Keyword searches for symbols return only symbols that are currently in the index, after any history of indexing and deleting files.", "quantifier": "every history and every keyword", "why_tests_cant": "depends on the interleaving of two separately maintained stores over unbounded histories", "anchors": ["analysis/completionIndex.go", "analysis/store.go: SearchClasses, SearchNamespaces, SearchFunctions, SearchMethods, DeleteDocument"]}
{"id": "C10", "title": "Deleting a file affects only that file", "statement": "After a file is deleted from the index none of its symbols is returned by lookups, and the lookups of every other file's symbols are unchanged.", "quantifier": "every index state and every pair of files", "why_tests_cant": "the set of other files and their keys is unbounded", "anchors": ["analysis/store.go: DeleteDocument, symbolDeletor.Delete"]}
{"id": "C11", "title": "Deleting a folder affects only files inside it", "statement": "Deleting a folder removes every indexed file located inside that folder and no other file.", "quantifier": "every folder URI and every set of indexed file URIs", "why_tests_cant": "the interesting URIs are those that share a textual prefix with the folder", "anchors": ["analysis/store.go: DeleteFolder", "internal/lsp/workspaceStore.go: removeDocument"]}
{"id": "C12", "title": "Unchanged files are skipped and changed files are re-indexed", "statement": "Re-indexing a file whose content has the hash already recorded does no work, and re-indexing any other content replaces the file's symbols with those of the new content and records the new hash.", "quantifier": "every index state and every file content", "why_tests_cant": "correctness must hold for every sequence of contents including returning to an earlier content", "anchors": ["analysis/store.go: CompareAndIndexDocument, SyncDocument"]}
{"id": "C13", "title": "A full indexing pass removes exactly the vanished files", "statement": "After starting a pass, visiting any set of files and finishing the pass, exactly those previously indexed files that were not visited are removed.", "quantifier": "every index state and every visiting order", "why_tests_cant": "the visited set and order are arbitrary", "anchors": ["analysis/store.go: PrepareForIndexing, FinishIndexing, CompareAndIndexDocument, getSyncedDocumentURIs"]}
{"id": "C14", "title": "Indexing a file survives a crash at any point", "statement": "If the process dies at any point while a file is being indexed, indexing that file again after restart leaves the same symbols as if the crash had not happened.", "quantifier": "every pre-state, every old and new content of the file, every crash point between two durable writes", "why_tests_cant": "crash points between the writes to the separate stores cannot be triggered by unit tests", "anchors": ["analysis/store.go: SyncDocument, indexDocumentSymbols, symbolDeletor"]}
{"id": "C15", "title": "Search limits are respected and truncation is reported", "statement": "A search limited to n results returns at most n results, and it reports itself complete only if no matching result was left out.", "quantifier": "every index content, keyword, limit and filter", "why_tests_cant": "the boundary between stopped and exhausted scans depends on counts of matching entries", "anchors": ["analysis/store.go: SearchOptions.WithLimit, IsLimitReached, SearchClasses, SearchInterfaces, SearchMethods", "analysis/completionIndex.go: searchCompletions"]}
{"id": "C16", "title": "Keyword search returns every match exactly once", "statement": "An unlimited keyword search returns every indexed symbol one of whose words starts with one of the keyword's words (ignoring case), and returns none of them twice.", "quantifier": "every set of indexed names and every keyword", "why_tests_cant": "one symbol matches through several words and several keyword tokens", "anchors": ["analysis/completionIndex.go: getCompletionKeys, searchCompletions", "analysis/wordtokeniser/index.go: Tokenise"]}
{"id": "C17", "title": "Splitting a name into words is total and faithful", "statement": "Splitting any name into searchable words never fails, always includes the whole name first, yields no duplicates, and every word is a contiguous part of the name.", "quantifier": "every byte string and every classification of characters into upper, lower, digit and other", "why_tests_cant": "the splitter is a hand-written state machine that slices by computed indices", "anchors": ["analysis/wordtokeniser/casing.go", "analysis/wordtokeniser/index.go: Tokenise, removeDup"]}
{"id": "C18", "title": "Find references returns exactly the recorded uses", "statement": "A reference search for a name returns exactly the locations recorded for that name by the latest indexing of every file, provided the approximate membership filter never forgets an inserted key.", "quantifier": "every history of indexing and removal, every name, every filter that has no false negatives (false positives allowed)", "why_tests_cant": "the filter may answer yes for anything; only a proof covers every false-positive pattern", "anchors": ["analysis/referenceIndex.go: index, deleteURI, search", "analysis/filter/filter.go: Insert, Commit, Lookup"]}
{"id": "C19", "title": "The reference index survives a restart", "statement": "Reloading the reference index from disk after any history gives the same answers to every reference search as before the restart.", "quantifier": "every history of indexing and removals, every searched name", "why_tests_cant": "restart may happen after any history", "anchors": ["analysis/referenceIndex.go: newReferenceIndex, index, deleteURI", "analysis/filter/filter.go: Encode, FilterDecode"]}
{"id": "C20", "title": "Workspace-relative URIs round-trip", "statement": "A file URI inside a workspace that is shortened relative to the workspace and expanded again is the original URI.", "quantifier": "every workspace URI and file URI", "why_tests_cant": "URIs may repeat the workspace prefix", "anchors": ["util/uri.go: CanonicaliseURI, URIFromCanonicalURI"]}
{"id": "C21", "title": "Line table is correct", "statement": "For any text, the start of line k reported by the server is the offset just after the k-th line break (LF, CR or CRLF), and mapping an offset to a line yields the line containing it.", "quantifier": "every byte string and every offset", "why_tests_cant": "texts mix line-ending conventions in unbounded ways", "anchors": ["analysis/document.go: calculateLineOffsets, lineAt, offsetAtLine, positionAt"]}
{"id": "C22", "title": "Positions and offsets convert back and forth", "statement": "Converting an offset of a document to a line/character position and back gives the same offset.", "quantifier": "every text and every offset in it", "why_tests_cant": "depends on multi-byte characters and line ends anywhere in the text", "anchors": ["analysis/document.go: positionAt, OffsetAtPosition"]}
{"id": "C23", "title": "Incremental edits keep text and line table right", "statement": "After any sequence of incremental or full changes, the server's text is the client's text and its line table is the one that would be computed afresh from that text.", "quantifier": "every initial text and every sequence of edits", "why_tests_cant": "edit sequences are unbounded and the line table is patched rather than recomputed", "anchors": ["analysis/document.go: ApplyChanges, calculateLineOffsets, OffsetAtPosition"]}
{"id": "C24", "title": "Type strings parse and print consistently", "statement": "Parsing a type text never fails, and printing the parsed type and parsing it again yields the same base name and array depth.", "quantifier": "every type text", "why_tests_cant": "array suffixes nest without bound and the parser indexes backwards", "anchors": ["analysis/symbolType.go: NewTypeString, resolveRawWithArrayLevel, ToString, Dearray"]}
{"id": "C25", "title": "Type unions are sets", "statement": "A union of types never lists a name twice, keeps the order of first appearance, and merging keeps every name of both sides; merging the same union twice changes nothing.", "quantifier": "every sequence of additions and merges", "why_tests_cant": "sequences of merges are unbounded", "anchors": ["analysis/symbolType.go: TypeComposite.add, merge, mergeWithArrayLevel"]}
{"id": "C26", "title": "Class names resolve by PHP's import rules", "statement": "A class name is resolved through a matching use-alias if there is one, otherwise it is taken as is if fully qualified or a built-in type, otherwise it is placed in the current namespace; the result is fully qualified or built-in.", "quantifier": "every import table, namespace and class name", "why_tests_cant": "aliases, qualified names and namespaces combine freely", "anchors": ["analysis/importTable.go: GetClassReferenceFQN, addClassName", "analysis/symbolType.go: SetNamespace, GetFirstAndRestParts"]}
{"id": "C27", "title": "Function and constant names resolve by PHP's import rules", "statement": "A qualified function or constant name whose first part is an imported alias resolves to the imported name followed by the remaining parts.", "quantifier": "every import table and qualified name", "why_tests_cant": "combination of alias and rest parts is unbounded", "anchors": ["analysis/importTable.go: GetFunctionReferenceFQN, FunctionPossibleFQNs, GetConstReferenceFQN"]}
{"id": "C28", "title": "The import table in force at a position is the right one", "statement": "In a file with several namespace blocks, the imports used at a position are those of the last block starting before that position.", "quantifier": "every ordered list of block starts and every position", "why_tests_cant": "binary search over unbounded lists", "anchors": ["analysis/document.go: ImportTableAtPos", "analysis/importTable.go"]}
{"id": "C29", "title": "Member lookup terminates on every class hierarchy", "statement": "Collecting the methods, properties or constants of a class terminates for every class hierarchy, including classes that extend or use each other in a cycle.", "quantifier": "every finite set of classes, interfaces and traits with arbitrary extends/implements/use edges", "why_tests_cant": "a cycle of any length can occur in user code and tests cover only a few hierarchies", "anchors": ["analysis/query.go: GetClassMethods, GetClassProps, GetClassClassConsts, GetInterfaceMethods"]}
{"id": "C30", "title": "Inherited members are found", "statement": "The methods collected for a class are exactly those of the classes, traits and interfaces reachable from it through extends, use and implements, each class contributing once.", "quantifier": "every finite class hierarchy", "why_tests_cant": "reachability over arbitrary graphs", "anchors": ["analysis/query.go: GetClassMethods, MergeMethodWithScope"]}
{"id": "C31", "title": "Member visibility follows PHP's rules", "statement": "A private member is offered only inside its own class, a protected member only within the class family, public members everywhere; after :: only static members unless the access is through parent or within the class.", "quantifier": "every combination of visibility, static flag, class relation and access form", "why_tests_cant": "full decision table over an unbounded relation of classes", "anchors": ["analysis/query.go: IsInheritedStatic, IsInherited, ReduceStatic, ReduceAccess"]}
{"id": "C32", "title": "Overridden members are reported once, nearest first", "statement": "When a member name is declared in several classes of a hierarchy, lookup reports one entry per name, the one from the class nearest to the accessed class.", "quantifier": "every list of collected members", "why_tests_cant": "override chains are unbounded", "anchors": ["analysis/query.go: ReduceFirst, ReduceStatic, ReduceAccess"]}
{"id": "C33", "title": "Message framing round trip", "statement": "Any sequence of non-empty messages written to the stream is read back as the same sequence, whatever bytes the messages contain.", "quantifier": "every finite sequence of non-empty byte strings", "why_tests_cant": "payloads may contain header-like bytes at any place", "anchors": ["internal/jsonrpc2/stream.go: headerStream.Read, headerStream.Write"]}
{"id": "C34", "title": "Malformed frames are errors, never wrong messages", "statement": "A frame with no, a non-numeric, a zero or a negative content length is rejected, and a frame whose payload is shorter than announced is rejected; unknown headers are ignored.", "quantifier": "every byte string", "why_tests_cant": "input is attacker-controlled bytes", "anchors": ["internal/jsonrpc2/stream.go: headerStream.Read"]}
{"id": "C35", "title": "Every request is answered exactly once, no notification is answered", "statement": "For every request received, exactly one reply is sent, whether the handler replies, replies twice, does not reply, or the request is cancelled; for notifications none is sent.", "quantifier": "every sequence of handler actions for every request, every schedule", "why_tests_cant": "schedules and handler behaviours are unbounded", "anchors": ["internal/jsonrpc2/jsonrpc2.go: Request.Reply, Conn.Run"]}
{"id": "C36", "title": "Requests start in arrival order", "statement": "The handler of a message starts only after every earlier message's handler has finished or declared itself parallel, in arrival order, and no schedule leaves a message forever unstarted while its predecessors have finished.", "quantifier": "every number of messages and every interleaving of their goroutines", "why_tests_cant": "interleavings are unbounded", "anchors": ["internal/jsonrpc2/jsonrpc2.go: Request.Parallel, Conn.Run"]}
{"id": "C37", "title": "Responses reach the call that is waiting for them, and never stall the connection", "statement": "A response delivers its result to the outgoing call with its id and to no other, ids of outgoing calls are pairwise distinct, and a response nobody waits for is ignored without affecting later messages.", "quantifier": "every interleaving of calls, cancellations and incoming responses", "why_tests_cant": "races between cancellation and response", "anchors": ["internal/jsonrpc2/jsonrpc2.go: Conn.Call, Conn.Run"]}
{"id": "C38", "title": "Server lifecycle requests always complete", "statement": "In any order of initialize, initialized and shutdown requests, each receives an answer, a second initialize is refused, and refusals have no side effect.", "quantifier": "every finite sequence of lifecycle requests", "why_tests_cant": "a lock leak shows only in sequences that repeat a request", "anchors": ["internal/lsp/general.go: initialize, initialized, shutdown"]}
{"id": "C39", "title": "Files are routed to the workspace that contains them", "statement": "A file is handled by a workspace folder exactly when it lies inside that folder.", "quantifier": "every list of workspace URIs and every file URI", "why_tests_cant": "folder URIs may be textual prefixes of each other", "anchors": ["internal/lsp/workspaceStore.go: getStore, addView, removeView"]}
{"id": "C40", "title": "Background indexing always finishes", "statement": "For any list of files, including files that cannot be decoded or read, a workspace indexing pass terminates and the clean-up step runs after all files were processed.", "quantifier": "every list of discovered files with arbitrary per-file failures and any worker schedule", "why_tests_cant": "failure patterns and schedules are unbounded", "anchors": ["internal/lsp/workspaceStore.go: newCreator, newAnalyser, indexFolder"]}
{"id": "C41", "title": "An open document mirrors the editor", "statement": "While a document is open the server's text equals the editor's: the text sent with open, then transformed by every change.", "quantifier": "every history of open, change and close notifications and every disk content", "why_tests_cant": "histories are unbounded and the disk may differ from the editor", "anchors": ["internal/lsp/sync.go: didOpen, didChange, didClose", "analysis/store.go: OpenDocument, GetOrCreateDocument, CloseDocument", "internal/lsp/workspaceStore.go: changeDocument"]}
{"id": "C42", "title": "External file changes reach the index", "statement": "After a changed-on-disk notification for a file that is not open in the editor is processed, the index reflects the content on disk.", "quantifier": "every history of requests, disk writes and notifications", "why_tests_cant": "depends on whether an earlier request left a cached copy in memory", "anchors": ["internal/lsp/sync.go: didChangeWatchedFiles", "analysis/store.go: GetOrCreateDocument, CompareAndIndexDocument"]}
{"id": "C43", "title": "The document outline lists every declaration once", "statement": "The outline of a document contains every declared symbol exactly once, in source order, with children of unlisted constructs lifted to the nearest listed ancestor.", "quantifier": "every symbol tree", "why_tests_cant": "trees are unbounded", "anchors": ["internal/lsp/symbol.go: documentSymbol"]}
{"id": "C44", "title": "Symbol traversal is complete and stoppable", "statement": "Traversing a document visits every symbol exactly once in pre-order; refusing descent skips exactly the symbols below; stopping ends the traversal immediately.", "quantifier": "every symbol tree and every visitor", "why_tests_cant": "trees and visitors are unbounded", "anchors": ["analysis/symbol.go: TraverseDocument, TraverseSymbol, traverser"]}
{"id": "C45", "title": "Variables resolve to the nearest preceding definition", "statement": "At a position, a variable name resolves to the latest definition that starts at or before the position, whatever the order in which definitions were recorded; and a declaration is reported unused exactly if no later use was recorded.", "quantifier": "every sequence of recordings and every position", "why_tests_cant": "binary insertion over unbounded sequences", "anchors": ["analysis/variable.go: VariableTable.add, get, GetVariables, unusedVariables"]}
{"id": "C46", "title": "Signature help highlights the argument under the cursor", "statement": "The active parameter reported is the index of the argument whose text range contains the cursor.", "quantifier": "every list of argument ranges and every position in the argument list", "why_tests_cant": "binary search over unbounded lists", "anchors": ["internal/lsp/signature.go: signatureHelp", "analysis/argumentList.go: newArgumentList"]}
{"id": "C47", "title": "Completion items are ordered by relevance", "statement": "The completion list is sorted by score, and sorting neither loses nor duplicates items.", "quantifier": "every list of scored items", "why_tests_cant": "needs all permutations of all lists", "anchors": ["internal/lsp/completion.go"]}
{"id": "C48", "title": "Namespace completion indexes every level", "statement": "For every declared namespace each of its levels is offered under its parent level, and nothing else.", "quantifier": "every namespace name", "why_tests_cant": "depth is unbounded", "anchors": ["analysis/namespace.go: indexablesFromNamespaceName, GetIndexCollection", "analysis/store.go: SearchNamespaces"]}
{"id": "C49", "title": "Import insertion goes to a valid place", "statement": "An automatically inserted use statement is placed after the last use declaration if any, else after the namespace declaration, else after the opening tag, and is only inserted where one of these exists.", "quantifier": "every sequence of top-level nodes", "why_tests_cant": "node sequences are unbounded", "anchors": ["analysis/insertUse.go: GetInsertUseContext, GetInsertAfterNode, GetUseEdit"]}
{"id": "C50", "title": "Position comparison is a total order consistent with ranges", "statement": "Comparing positions is a total order (reflexive, antisymmetric, transitive, total) and the in-range test answers before/inside/after consistently with that order.", "quantifier": "all positions and ranges", "why_tests_cant": "integers are unbounded", "anchors": ["internal/lsp/protocol/util.go: ComparePos, IsInRange, CompareRange"]}
{"id": "C51", "title": "Keyword search returns only matches", "statement": "Every symbol a keyword search returns passes the caller's filter, belongs to the requested namespace or class, and has a word that starts with a word of the keyword (ignoring case).", "quantifier": "every history of indexing and deleting, every keyword, scope, filter and limit", "why_tests_cant": "words of earlier versions of a name stay in the completion index; which histories expose them is unbounded", "anchors": ["analysis/completionIndex.go: searchCompletions, createCompletionEntries", "analysis/store.go: namespacePredicate, SearchFunctions, SearchClasses, SearchMethods, SearchProperties"]}
{"id": "C52", "title": "Every part of a name is searchable", "statement": "For every name of valid text, splitting it into words yields a word that starts at every position where a part of the name starts: after an underscore, where the kind of character changes, and at the last upper-case letter before a lower-case one, unless that part is a single character followed by an underscore.", "quantifier": "every name of valid UTF-8, every classification of characters, every position", "why_tests_cant": "names and positions are unbounded, and the splitter keeps its state across the whole name", "anchors": ["analysis/wordtokeniser/casing.go: casing", "analysis/wordtokeniser/index.go: Tokenise"]}
{"id": "C53", "title": "Exactly the unused imports are reported", "statement": "An import is reported as unused if and only if its alias is not used and not declared again in the rest of the namespace block in which it is declared.", "quantifier": "every sequence of namespace definitions, use declarations and class, function and constant references of a file", "why_tests_cant": "a file has unboundedly many declarations and references in any order, in several blocks", "anchors": ["analysis/importTable.go: addClassName, useClass, useFunctionOrClass, useConstOrClass, unusedImportItems", "analysis/document.go: Load, pushImportTable, currImportTable", "analysis/diagnostic.go: UnusedDiagnostics"]}
{"id": "C54", "title": "Unions keep array types and element types apart", "statement": "The printed form of a union of types lists every type added to it, an array type and its element type being different types.", "quantifier": "every sequence of additions and merges", "why_tests_cant": "sequences of merges are unbounded", "anchors": ["analysis/symbolType.go: TypeComposite.add, merge, ToString"]}
{"id": "C55", "title": "An accepted completion refers to the completed class", "statement": "After accepting a class name completion, including its additional use statement, the inserted name resolves at that place to the completed class.", "quantifier": "every import table, class and typed word", "why_tests_cant": "aliases, namespaces and words are unbounded and interact", "anchors": ["analysis/importTable.go: ResolveToQualified, GetClassReferenceFQN", "analysis/insertUse.go: GetUseEdit"]}
{"id": "C56", "title": "Keyword search among the members of a class", "statement": "Searching the members of a class for a keyword reports exactly the members of the class, including inherited ones, whose name matches the keyword, and repeating the search within a request reports the same members.", "quantifier": "every class hierarchy, every keyword, every match function, every previous search of the request", "why_tests_cant": "the search filters a cached list in place, so the result depends on what was searched before", "anchors": ["analysis/query.go: SearchClassMethods, SearchClassProps, SearchClassClassConsts"]}
{"id": "C57", "title": "Messages sent at the same time are never mixed", "statement": "However many goroutines send messages at the same time, the bytes on the wire are whole messages one after the other, each sent once, and the messages of one goroutine keep their order, as long as the output accepts bytes.", "quantifier": "every number of senders and messages, every interleaving of their writes", "why_tests_cant": "interleavings are unbounded and rare ones break the framing for good", "anchors": ["internal/jsonrpc2/stream.go: headerStream.Write"]}
{"id": "C58", "title": "No message of the client crashes the server in the dispatch", "statement": "For every message the dispatch calls the server method that the message names, at most once and only with parameters that could be read, answers a request once, and never panics, whatever the method name and whether the parameters are good, bad or missing.", "quantifier": "every method name, parameters present, malformed or missing, request or notification, cancelled or not", "why_tests_cant": "the product of methods and parameter shapes is not enumerated by tests; method names are arbitrary strings", "anchors": ["internal/lsp/protocol/server.go: serverHandler.Deliver", "internal/lsp/protocol/protocol.go: sendParseError", "internal/jsonrpc2/handler.go: defaultHandler.Deliver"]}
{"id": "C59", "title": "Request ids survive the round trip", "statement": "The id in a reply is the id that the client wrote in the request, for numbers and for strings, and different ids stay different.", "quantifier": "every id of the JSON-RPC protocol", "why_tests_cant": "ids are chosen by the client from an unbounded domain", "anchors": ["internal/jsonrpc2/wire.go: ID.UnmarshalJSON, ID.MarshalJSON"]}
{"id": "C60", "title": "An upgrade discards the index of an older release, once", "statement": "When the index on disk was written by an older release than the one that starts, it is emptied and everything is indexed afresh; otherwise nothing is lost; and one upgrade empties the index once.", "quantifier": "every history of operations before the upgrade, every version text, every comparison of versions", "why_tests_cant": "ranges over all histories that fill the index and all pairs of versions", "anchors": ["analysis/store.go: Store.Migrate, Clear, GetStoreVersion, PutVersion", "internal/lsp/workspaceStore.go: addView"]}
{"id": "C61", "title": "Folders can be added, removed and added again", "statement": "In any history of adding and removing workspace folders, a folder is served from one index at most, and the files of a folder that was added last and not removed are served.", "quantifier": "every finite history of adding and removing folders", "why_tests_cant": "histories are unbounded; what is left open by an earlier removal shows only later", "anchors": ["internal/lsp/workspaceStore.go: addView, removeView", "analysis/store.go: NewStore, Close"]}
{"id": "C62", "title": "Closing a document keeps the file in the index", "statement": "After a document is closed, the index describes the file on disk.", "quantifier": "every history of open, change, close, requests, disk writes and notifications", "why_tests_cant": "depends on the whole history: what was in memory when the document was opened and whether it was saved", "anchors": ["internal/lsp/sync.go: didClose", "analysis/store.go: CloseDocument, SyncDocument, ReleaseDocument"]}
{"id": "C63", "title": "The symbol under the cursor is the closest one", "statement": "Hover, definition and completion work on the symbol whose text is at or ends at the cursor; if several do, on the one that begins last and is innermost; if none does, on none.", "quantifier": "every document with a well-formed syntax tree and every position", "why_tests_cant": "ranges over all symbol trees and all positions, including nested and adjacent symbols", "anchors": ["analysis/document.go: HasTypesAtPos, HasTypesBeforePos", "util/traverser.go"]}
{"id": "C64", "title": "The class around a position is the innermost one that contains it", "statement": "For a position in the body of a class, interface or trait the innermost such declaration around it is found, and for a position outside of all of them none.", "quantifier": "every document and every position", "why_tests_cant": "ranges over all nestings of classes and all positions", "anchors": ["analysis/document.go: ClassAt, GetClassScopeAtSymbol, getClassAtPos"]}
{"id": "C65", "title": "Signature help describes the innermost call around the cursor", "statement": "The argument list found for a position is the innermost one that contains the position, and the call found with it is the one it belongs to.", "quantifier": "every document and every position", "why_tests_cant": "ranges over all nestings of calls and all positions", "anchors": ["analysis/document.go: ArgumentListAndFunctionCallAt", "internal/lsp/signature.go: signatureHelp"]}
{"id": "C66", "title": "The variables in scope are those of the innermost function around the position", "statement": "The scope found for a position is the innermost function-like body that contains the position, or the scope of the file if there is none.", "quantifier": "every document with a well-formed syntax tree, every nesting of scopes and every position", "why_tests_cant": "ranges over all nestings of functions, methods and closures and all positions", "anchors": ["analysis/document.go: GetVariableTableAt, pushVariableTable, popVariableTable"]}
{"id": "C67", "title": "Every variable is known in the function it is written in", "statement": "Every variable written in a document is recorded, with its name and its place, among the variables of the innermost function, method or closure around it (or of the document, outside of functions). A parameter is recorded in its function, a variable in the `use` of a closure both in the closure and in the function around it. Hover, completion, highlighting and the report of unused variables rest on it.", "quantifier": "every document, every syntax tree of it of any size and nesting, and every variable in it", "why_tests_cant": "ranges over all nestings of statements, expressions, functions and classes; a construct whose operands are not scanned silently loses the variables in it, and a test covers only the constructs somebody thought of", "anchors": ["analysis/symbolBlock.go: scanNode, typesToScanForChildren", "analysis/expression.go: scanForExpression, nodeTypeToExprConstructor", "analysis/assignment.go: newAssignment, analyseVariableAssignment", "analysis/variable.go: newVariable", "analysis/anonymousFunction.go: analyseUseClause", "analysis/document.go: pushVariable, pushVariableTable, popVariableTable"]}
{"id": "C68", "title": "Every declaration is found under its full name", "statement": "Every class, interface, trait, function, constant and constant of `define` written in a document becomes a symbol of the document of that sort, with the place of the declaration and with its full name: the namespace the declaration is in, followed by its name.", "quantifier": "every document, every syntax tree of it, every sequence of namespaces and every nesting of the declaration in other code", "why_tests_cant": "ranges over all syntax trees and over all combinations of namespaces and nestings; a declaration under a wrong name is not found by any other document, without an error", "anchors": ["analysis/class.go: newClass, analyseHeader", "analysis/interface.go: newInterface", "analysis/trait.go: newTrait", "analysis/function.go: newFunction", "analysis/const.go: newConst", "analysis/define.go: newDefine", "analysis/namespace.go: newNamespace", "analysis/symbolType.go: SetNamespace"]}
{"id": "C69", "title": "Every member is stored under the class it is written in", "statement": "Every method, property and constant written in a class, interface, trait or anonymous class becomes a symbol with its name and place, and its class is the full name of the class it is written in.", "quantifier": "every document, every syntax tree of it, every class and every member of it, whatever the bodies of the methods contain", "why_tests_cant": "the class is read from a stack that is never popped, so it depends on everything that was analysed before; tests with small classes do not show it", "anchors": ["analysis/document.go: addClass, getLastClass", "analysis/method.go: newMethod", "analysis/property.go: newProperty", "analysis/classConst.go: newClassConst", "analysis/anonymousClass.go: newAnonymousClass"]}
{"id": "C70", "title": "The analysis of a document gives symbols in the order of the text, nested and complete", "statement": "Analysing any document ends without a crash and with every block and scope closed; the symbols it gives stand in the order in which they begin in the text, a symbol inside a block does not end after it, and neighbouring scopes do not overlap.", "quantifier": "every text and every syntax tree of it, of any size and nesting", "why_tests_cant": "ranges over all syntax trees; the lookups by position (C63-C66) silently return something else when the order is violated for one combination of constructs", "anchors": ["analysis/symbolBlock.go: scanNode, scanForChildren", "analysis/expression.go: scanForExpression", "analysis/document.go: Load, addSymbol, pushBlock, popBlock, pushVariableTable, popVariableTable", "analysis/*.go: the constructors of symbols"]}
{"id": "C71", "title": "Members declared in doc comments become members of the class they document", "statement": "Every `@property`, `@property-read`, `@property-write` and `@method` tag in the doc comment of a class makes one member of that class with the name in the tag, and there are no other such members: a member from a doc comment is written in a tag of a comment, and its class is the one that the comment documents.", "quantifier": "every document, every syntax tree of it, every doc comment with any list of tags, in any namespace", "why_tests_cant": "the last doc comment is a mutable field of the document that every construct before the class may have set; which comment reaches which class depends on everything in between", "anchors": ["analysis/phpDocComment.go: newPhpDocFromNode, parseTag, prefillTags", "analysis/class.go: analyseHeader", "analysis/document.go: getValidPhpDoc, setLastPhpDoc"]}
{"id": "C72", "title": "Renaming a variable changes it everywhere and nothing else", "statement": "Renaming the variable under the cursor changes exactly the occurrences of that variable in the function the cursor is in: no text with another name, no variable of another function, none left out, and every place at most once.", "quantifier": "every document, every syntax tree of it, every position of the cursor, every new name", "why_tests_cant": "ranges over all syntax trees and nestings of functions; an occurrence that the analysis lost is left behind silently and the program is broken", "anchors": ["internal/lsp/reference.go: rename", "analysis/document.go: HasTypesAtPos, GetVariableTableAt", "analysis/variable.go: GetContextualVariables, add, pushVariable"]}
{"id": "C73", "title": "The analysis makes nothing up", "statement": "Every symbol of a document stands for a piece of its text: a declaration of that sort with that range, a name of that sort with that range and that text, or a call or an access with the range and text of the name called or accessed (an empty place if the name is not written yet). Every variable of a function is written in that function, and every scope is that of the document or of a function, method or closure in it.", "quantifier": "every document and every syntax tree of it, including trees with syntax errors", "why_tests_cant": "ranges over all syntax trees; a symbol with a wrong range makes go-to-definition, outline and rename act on the wrong text for one combination of constructs", "anchors": ["analysis/symbolBlock.go: scanNode", "analysis/expression.go: scanForExpression", "analysis/*.go: the constructors of symbols", "analysis/variable.go: newVariable, VariableTable"]}
{"id": "C74", "title": "The types shown for an expression are those it has", "statement": "The types shown for a variable, call or member are the types that the code before it and the declarations it refers to give it: the last value assigned, what a doc comment or instanceof adds, the elements of the collection in a foreach, the return type of a function or method (the object itself for static), the type of a property. No type is shown that nothing in the program gives it.", "quantifier": "every program, every nesting of expressions, closures and loops, every content of the index", "why_tests_cant": "ranges over all programs and all indexes; a type that is lost or invented in one combination of constructs makes completion and go-to-definition silently wrong", "anchors": ["analysis/variable.go: newVariable, mergeTypesWithVariable, Resolve, GetTypes", "analysis/assignment.go: analyseVariableAssignment", "analysis/foreach.go: analyseForeachStatement, GetTypes", "analysis/methodAccess.go, propertyAccess.go, scopedMethodAccess.go, scopedPropertyAccess.go, functionCall.go: Resolve", "analysis/relativeScope.go: resolveMemberTypes", "analysis/binaryExpression.go: processInstanceOfExpression", "analysis/anonymousFunction.go: newAnonymousFunction"]}
{"id": "C75", "title": "The types shown follow changes of other files", "statement": "The types shown for an expression at any time are those that the current declarations in all files give it, also when the file with the declaration was changed after the types were asked for the first time.", "quantifier": "every expression, every history of requests and changes of the index", "why_tests_cant": "ranges over all histories; the stale answer appears only when a request, a change of another file and a second request come in this order", "anchors": ["analysis/expression.go, variable.go, functionCall.go, methodAccess.go: Resolve", "analysis/document.go: Load", "internal/lsp/hover.go: hover"]}
{"id": "C76", "title": "The problems shown for a document are those of its current text", "statement": "When the server has come to rest, the diagnostics that the editor shows for an open document are exactly those of its latest version (syntax errors, unused names and uses of deprecated names), judged by the current index; diagnostics sent for a document are always about a version of that document.", "quantifier": "every sequence of openings and changes of documents, every timing of the two-second timer and of the functions it starts, every change of the index", "why_tests_cant": "ranges over all schedules of handlers, timer and goroutines; the wrong message is only left over in some of them", "anchors": ["internal/lsp/diagnostics.go: provideDiagnostics, provideAnalysisDiagnostics", "internal/lsp/sync.go: didOpen", "internal/lsp/workspaceStore.go: changeDocument", "analysis/store.go: DebouncedDeprecation"]}
{"id": "C77", "title": "Uses of deprecated declarations are marked, and no others", "statement": "A use of a name is marked as deprecated if and only if a declaration it refers to (the function, class, interface, constant, or the method or property that the access reaches) is marked @deprecated; each use is marked at most once, at its own place, and exactly when go to definition leads to a deprecated declaration.", "quantifier": "every document, every content of the index, every order of uses in the document", "why_tests_cant": "ranges over all inheritance graphs and all sequences of uses that share one query; the wrong result needs a particular earlier use", "anchors": ["analysis/diagnostic.go: DeprecatedDiagnostics", "analysis/query.go: GetClassMethods, GetClassProps, GetClassConsts, ReduceStatic, ReduceAccess"]}
{"id": "C78", "title": "Go to definition leads to the declaration that PHP would use", "statement": "Go to definition on a name leads to exactly the declarations it refers to, in files that can be opened: for a class, interface, trait, function or constant those of that name; for new the class's own public constructor or else the class; for a member the one in the nearest class that has a usable member of this name, or in an interface if no class has one.", "quantifier": "every document, every import table, every inheritance graph and every content of the index", "why_tests_cant": "ranges over all class graphs, names and imports; a wrong declaration is found only in particular combinations", "anchors": ["internal/lsp/definition.go: definition", "analysis/query.go", "analysis/importTable.go: GetClassReferenceFQN", "util/uri.go: IsURINavigatable"]}
{"id": "C79", "title": "Members are recorded with the modifiers that are written", "statement": "The visibility, static, abstract and final of a property, class constant or method are those of the keywords in its declaration, in any order; without a keyword a member is public and not static; a declaration of several properties or constants gives one per element, in order, all with these modifiers.", "quantifier": "every declaration of members, every order of keywords and anything between them", "why_tests_cant": "ranges over all declarations and orders of keywords", "anchors": ["analysis/class.go: getMemberModifier", "analysis/property.go", "analysis/classConst.go", "analysis/method.go"]}
{"id": "C80", "title": "Parameters are recorded as they are declared", "statement": "A function or method has exactly the declared parameters, in that order, with the names, default values and types that are written; a type is the declared one together with those that the @param tag of this variable names.", "quantifier": "every list of parameters and every doc comment", "why_tests_cant": "ranges over all declarations and all doc comments with tags in any order", "anchors": ["analysis/parameter.go: newParameter", "analysis/function.go: newFunction", "analysis/method.go: newMethod", "analysis/phpDocComment.go: findParamTag"]}
{"id": "C81", "title": "Doc comments give return types and types of properties", "statement": "The return types of a function or method are exactly the types that the @return tags of the doc comment on the lines right above name; the types of a property those of its first @var tag; without such a comment there are none.", "quantifier": "every declaration, every doc comment and its place", "why_tests_cant": "ranges over all doc comments and places", "anchors": ["analysis/function.go", "analysis/method.go", "analysis/property.go", "analysis/phpDocComment.go", "analysis/document.go: getValidPhpDoc"]}
{"id": "C82", "title": "Types in doc comments are those that their text names", "statement": "A text like A|B[]|self in a doc comment names exactly the classes of its parts, resolved like names in code, self being the class around, with or without [].", "quantifier": "every text, import table, namespace and enclosing class", "why_tests_cant": "ranges over all texts and import tables", "anchors": ["analysis/symbolType.go: typesFromPhpDoc", "analysis/phpDocComment.go"]}
{"id": "C83", "title": "Classes and interfaces are recorded with the parents, interfaces and traits they name", "statement": "The parent, interfaces and traits recorded for a class, and the bases recorded for an interface, are those that extends, implements and use name, in that order, resolved by the rules of PHP; the class is recorded under its name in the namespace of the file.", "quantifier": "every declaration of a class or interface, every import table and namespace", "why_tests_cant": "ranges over all declarations and import tables; everything about inheritance (C30-C32) starts from these records", "anchors": ["analysis/class.go: newClass", "analysis/interface.go: newInterface", "analysis/trait.go", "analysis/traitAccess.go"]}
{"id": "C84", "title": "use imports what is written", "statement": "Each clause of a use declaration imports the name that is written under its alias (or last part), as a class, a function or a constant by its keyword; in a group the prefix is put in front; no other import changes; afterwards the alias stands for the imported name; the place of an import is that of its clause.", "quantifier": "every use declaration, every earlier import table", "why_tests_cant": "ranges over all declarations, groups and histories of imports", "anchors": ["analysis/use.go: processNamespaceUseDeclaration", "analysis/importTable.go"]}
{"id": "C85", "title": "Constants are recorded under their names with their values", "statement": "A constant of a file is recorded under its name in the namespace of the file, a class constant under its name, both with the text written after the equals sign.", "quantifier": "every declaration, namespace and text of the value", "why_tests_cant": "ranges over all declarations and values", "anchors": ["analysis/const.go: newConst", "analysis/classConst.go: newClassConst"]}
{"id": "C86", "title": "Declared types are recorded", "statement": "The type that the code declares for a parameter or as a return type is among the types that are recorded for it, resolved by the rules of PHP: nullable types stand for the type, self for the class around.", "quantifier": "every function and method, every declared type", "why_tests_cant": "ranges over all declarations", "anchors": ["analysis/parameter.go: newParameter", "analysis/function.go: newFunction", "analysis/method.go: newMethod", "analysis/typeDeclaration.go: newTypeDeclaration"]}
{"id": "C87", "title": "A doc comment belongs to the declaration that follows it", "statement": "A doc comment applies to the declaration that comes next after it, on the same line or on the next one, and to no other.", "quantifier": "every document and place of doc comments", "why_tests_cant": "ranges over all documents", "anchors": ["analysis/document.go: getValidPhpDoc", "analysis/phpDocComment.go"]}
{"id": "C88", "title": "Hovering shows the declarations that a name refers to", "statement": "Hovering over the name of a class, interface, trait, function, constant or member shows exactly the declarations it refers to by the rules of PHP; after new it shows the public constructor that the object gets, also an inherited one, or else the class; elsewhere go to definition leads to the same declarations, as far as their files can be opened.", "quantifier": "every index of declarations, every kind of use, every import table and context", "why_tests_cant": "ranges over all class hierarchies and import tables", "anchors": ["internal/lsp/hover.go: hover", "analysis/query.go: GetClassConstructor, GetClassMethods"]}
{"id": "C89", "title": "Signature help describes what the call refers to", "statement": "Inside the parentheses of a call signature help describes exactly the function, method or public constructor that the call refers to, once.", "quantifier": "every index of declarations, every call, every import table and context", "why_tests_cant": "ranges over all class hierarchies, import tables and call sites", "anchors": ["internal/lsp/signature.go: signatureHelp", "analysis/argumentList.go: ResolveToHasParams"]}
{"id": "C90", "title": "Completion of a plain word offers exactly the declared symbols that match", "statement": "Completion of a name offers only symbols declared in the current files, whatever the word and the limit; for a word without a namespace, as long as fewer symbols match than the limit allows, it offers every class, interface, constant and function whose name matches the word, each once, and the list is not marked as incomplete.", "quantifier": "every history of the index, every word, every import table and every limit", "why_tests_cant": "ranges over all indexes, words and limits", "anchors": ["internal/lsp/completion.go: nameCompletion, classCompletion, interfaceCompletion, traitCompletion, typeCompletion", "internal/lsp/server.go: baseSearchOptions", "analysis/store.go: SearchClasses, SearchInterfaces, SearchTraits, SearchConsts, SearchDefines, SearchFunctions"]}
{"id": "C91", "title": "A list of completions that is not marked as incomplete leaves nothing out", "statement": "If a list of completed names is not marked as incomplete, it offers every class, interface, constant and function (or, after extends, implements and use, every class, interface or trait) whose name matches the word.", "quantifier": "every history of the index, every word, every import table and every limit", "why_tests_cant": "ranges over all indexes and limits; the limit of the server is larger than any project in a test", "anchors": ["internal/lsp/completion.go: nameCompletion, classCompletion, interfaceCompletion, traitCompletion, typeCompletion", "internal/lsp/server.go: baseSearchOptions"]}
{"id": "C92", "title": "Completion after an arrow offers exactly the members that can be used", "statement": "After `$x->` every proposal is a method or property of a class or interface that `$x` can be, fits the typed letters and may be used (public, or the code is in the class of `$x`, or through `$this` and not private to another class); no member is proposed twice. If `$x` is of one class or interface, the name of every such method, whether declared, inherited, from a trait or from an interface, and of every such declared or inherited property is proposed exactly once, and the proposal is the nearest declaration that may be used.", "quantifier": "every index without two classes or interfaces of one name, every expression with its types, every word and every class around the cursor", "why_tests_cant": "ranges over all hierarchies, words and access contexts; one query object with shared caches and sets serves all the searches", "anchors": ["internal/lsp/completion.go: memberAccessCompletion, scopedAccessCompletion", "internal/lsp/symbolConverter.go: methodToCompletionItem, propToCompletionItem, classConstToCompletionItem", "analysis/query.go: SearchClassMethods, SearchClassProps, SearchClassClassConsts, SearchInterfaceMethods, SearchInterfaceProps, SearchInterfaceClassConsts, MergeMethodWithScope, ReduceAccess, ReduceStatic"]}
{"id": "C93", "title": "Completion after a double colon offers exactly the members that can be used", "statement": "After `Name::` every proposal is a static property, static method or constant of the class or interface, fits the typed letters and may be used; after `self::`, `static::` and `parent::` also instance members as these forms allow; after `$` only properties. No member is proposed twice. For one class or interface the name of every such member is proposed exactly once and is the nearest declaration that may be used; protected constants may be offered in addition.", "quantifier": "every index without two classes or interfaces of one name, every name with its types, every word and every class around the cursor", "why_tests_cant": "ranges over all hierarchies, words and access contexts", "anchors": ["internal/lsp/completion.go: memberAccessCompletion, scopedAccessCompletion", "internal/lsp/symbolConverter.go: methodToCompletionItem, propToCompletionItem, classConstToCompletionItem", "analysis/query.go: SearchClassMethods, SearchClassProps, SearchClassClassConsts, SearchInterfaceMethods, SearchInterfaceProps, SearchInterfaceClassConsts, MergeMethodWithScope, ReduceAccess, ReduceStatic"]}
{"id": "C94", "title": "Accepting a member after a double colon inserts what refers to it", "statement": "With nothing typed after `Name::`, accepting a proposal inserts the text that refers to the member: the name of a constant, the call of a method, the name of a static property with its dollar sign.", "quantifier": "every index and every proposal", "why_tests_cant": "ranges over all proposals", "anchors": ["internal/lsp/completion.go: memberAccessCompletion, scopedAccessCompletion", "internal/lsp/symbolConverter.go: methodToCompletionItem, propToCompletionItem, classConstToCompletionItem", "analysis/query.go: SearchClassMethods, SearchClassProps, SearchClassClassConsts, SearchInterfaceMethods, SearchInterfaceProps, SearchInterfaceClassConsts, MergeMethodWithScope, ReduceAccess, ReduceStatic"]}
{"id": "C95", "title": "Inside of a trait its own members are completed", "statement": "In a trait, `$this->` and `self::` offer the methods and properties that the trait declares.", "quantifier": "every index with a trait", "why_tests_cant": "ranges over all indexes", "anchors": ["internal/lsp/completion.go: memberAccessCompletion, scopedAccessCompletion", "internal/lsp/symbolConverter.go: methodToCompletionItem, propToCompletionItem, classConstToCompletionItem", "analysis/query.go: SearchClassMethods, SearchClassProps, SearchClassClassConsts, SearchInterfaceMethods, SearchInterfaceProps, SearchInterfaceClassConsts, MergeMethodWithScope, ReduceAccess, ReduceStatic", "analysis/trait.go: newTrait", "analysis/relativeScope.go"]}
{"id": "C96", "title": "Variable completion offers the variables of the function around the cursor", "statement": "For a document with a well-formed syntax tree, completion of variables offers exactly the names that the analysis has recorded, in the table of the innermost function around the cursor (of the document outside of functions), as counting from before the cursor and that contain the typed word. No name is offered twice. Every name offered is that of a variable written in the document that ends before the cursor and that belongs to a function around the cursor or to the document.", "quantifier": "every well-formed syntax tree, every position and every word", "why_tests_cant": "ranges over all syntax trees, cursors and words", "anchors": ["internal/lsp/completion.go: variableCompletion", "analysis/variable.go: GetVariables", "analysis/document.go: GetVariableTableAt, HasTypesAtPos"]}
{"id": "C97", "title": "The word before the cursor", "statement": "The word that completion looks for is the longest word that ends at the cursor, lies on the line of the cursor, consists of ASCII letters, digits, underscores, backslashes and characters from U+0080 to U+00FF, and does not begin with a digit.", "quantifier": "every text without a CR that is not followed by LF, every cursor before which the line has no characters beyond U+FFFF", "why_tests_cant": "ranges over all texts and cursors", "anchors": ["analysis/document.go: wordRegex, WordAtPos", "internal/lsp/completion.go: completion"]}
{"id": "C98", "title": "The word before the cursor is a whole PHP name", "statement": "The word that completion looks for is the longest PHP name (with namespace separators) that ends at the cursor, whatever letters it has.", "quantifier": "every text and every cursor", "why_tests_cant": "ranges over all texts and cursors", "anchors": ["analysis/document.go: wordRegex, WordAtPos"]}
{"id": "C99", "title": "Find references on a use of a class", "statement": "With the cursor in or directly behind a name that refers to a class, interface or trait, find references lists exactly the places, in the files that are indexed and not deleted since and that are not bundled stubs, where a class or interface of that full name is declared or a name refers to it. Names are compared with their case. `self`, `static` and `$this` are not listed, and on them nothing is.", "quantifier": "every history of indexing, deletions, restarts and crashes, every syntax tree and every cursor", "why_tests_cant": "ranges over all histories of the index and all files", "anchors": ["internal/lsp/reference.go: references", "analysis/store.go: SymToRefs, writeAllSymbols, GetReferences", "analysis/document.go: NodeSpineAt"]}
{"id": "C100", "title": "Find references on the declaration of a class", "statement": "With the cursor on the name in the declaration of a class, interface or trait, find references lists its declaration and the places that name it, and nothing else.", "quantifier": "every history of the index, every syntax tree and every cursor", "why_tests_cant": "ranges over all histories of the index and all files", "anchors": ["internal/lsp/reference.go: references", "analysis/document.go: NodeSpineAt, NodeRange, ImportTableAtPos", "analysis/class.go, interface.go: ReferenceFQN"]}
{"id": "C101", "title": "Find references on a member", "statement": "With the cursor on the name of a method, property or class constant, in its declaration or in a use, find references lists the declarations and uses of this member: all those of members of that kind and name, and no others.", "quantifier": "every history of the index, every syntax tree and every cursor", "why_tests_cant": "ranges over all histories of the index and all files", "anchors": ["internal/lsp/reference.go: references", "analysis/store.go: SymToRefs", "analysis/methodAccess.go, propertyAccess.go, scopedMethodAccess.go, scopedPropertyAccess.go, scopedConstantAccess.go: MemberName", "analysis/method.go, property.go, classConst.go: ReferenceFQN"]}
{"id": "C102", "title": "Find references on a function", "statement": "With the cursor on the name of a function, in its declaration or in a call, find references lists, once each, the declaration of the function and the calls of it.", "quantifier": "every history of the index, every syntax tree and every cursor", "why_tests_cant": "ranges over all histories of the index and all files", "anchors": ["internal/lsp/reference.go: references", "analysis/store.go: SymToRefs", "analysis/importTable.go: FunctionPossibleFQNs", "analysis/function.go: ReferenceFQN"]}
{"id": "C103", "title": "Lookups while files are indexed", "statement": "While any number of files are being indexed and deleted at the same time, no file by two at once, every lookup by name answers at every moment exactly as if the calls that have returned had been made one after the other in the order in which they returned, and the others not at all. No call is lost and none panics. If the process dies at any moment, the lookups after a restart are those of the calls that had returned.", "quantifier": "every history, every schedule of any number of indexings and deletions, every moment of it, every lookup", "why_tests_cant": "interleavings of reads and writes of three databases and a map cannot be enumerated by tests", "anchors": ["analysis/store.go: SyncDocument, DeleteDocument, writeAllSymbols", "analysis/store.go: newSymbolDeletor", "analysis/referenceIndex.go: deleteURI, index", "internal/lsp/workspaceStore.go: newCreator, newDeletor, changeDocument"]}
{"id": "C104", "title": "Indexing many files at once leaves what indexing them in turn leaves", "statement": "When indexings and deletions made at the same time, no file by two at once, have all returned, the databases are byte for byte what the same calls leave when made one after the other in the order in which they returned; lookups, keyword searches and reference searches answer accordingly. For a pass over different files the order does not matter: the index describes the indexed version of each of them.", "quantifier": "every history, every schedule of any number of indexings and deletions", "why_tests_cant": "interleavings of reads and writes of three databases and a map cannot be enumerated by tests", "anchors": ["analysis/store.go: SyncDocument, DeleteDocument", "internal/lsp/workspaceStore.go: newCreator, indexFolder"]}
{"id": "C105", "title": "Find references while files are indexed", "statement": "A reference search made while files are being indexed and deleted, no file by two at once, does not fail. For each file that nobody is working on it lists exactly the uses recorded by its latest indexing, for the others these or none.", "quantifier": "every history, every schedule of any number of indexings and deletions, every moment of it, every searched name", "why_tests_cant": "the moments between the change of a filter and the commit of the batch cannot be enumerated by tests", "anchors": ["analysis/store.go: SyncDocument, GetReferences", "analysis/referenceIndex.go: index, search, deleteURI"]}
{"id": "C106", "title": "A file indexed twice at the same time", "statement": "When a file is indexed and deleted by several calls that overlap, the index describes in the end one version of it: the one whose hash is recorded.", "quantifier": "every history, every schedule", "why_tests_cant": "interleavings cannot be enumerated by tests", "anchors": ["analysis/store.go: SyncDocument, DeleteDocument, CompareAndIndexDocument", "internal/lsp/workspaceStore.go: changeDocument, newCreator, newDeletor"]}
{"id": "C107", "title": "Nothing is missing and nothing is invented while files are indexed", "statement": "Whatever indexings and deletions are made at the same time, also several for one file: at every moment no call panics, none is lost, the recorded hash of each file is that of the call for it that returned last, and every lookup by name succeeds, leaves out no symbol of these versions, and lists only symbols of that name that some version of a file, indexed before or being indexed, declares.", "quantifier": "every history, every schedule of any number of indexings and deletions, every moment of it, every lookup", "why_tests_cant": "interleavings of reads and writes of the databases cannot be enumerated by tests", "anchors": ["analysis/store.go: SyncDocument, DeleteDocument, writeAllSymbols", "analysis/store.go: newSymbolDeletor", "internal/lsp/workspaceStore.go: newCreator, newDeletor, changeDocument"]}
{"id": "C108", "title": "What a completed name inserts", "statement": "An item that completes the name of a symbol inserts the name it shows; for a function, a call follows, with the cursor between the parentheses exactly if the function has parameters. An item for a namespace inserts what completes the word typed so far to the name of the namespace: the text up to the last `\\` of the word, followed by the inserted text, is the whole name.", "quantifier": "every index, word, import table and limit", "why_tests_cant": "ranges over all indexes and words", "anchors": ["internal/lsp/completion.go: nameCompletion, classCompletion, interfaceCompletion, traitCompletion, typeCompletion", "internal/lsp/symbolConverter.go: hasParamsInsertText, namespaceDiff, namespaceToCompletionItem"]}
{"id": "C109", "title": "Background indexing does not disturb an open file", "statement": "While background workers index files at the same time, in any order of their steps: for an open file the server keeps the text the editor has sent, from the end of the handling of the message on, if no worker was busy with this file while it was opened and the file had the editor's text then. What it is restricted to matters: a worker that read the file before can replace the open document and drop it, and the changes are lost.", "quantifier": "every schedule of messages, workers, passes and writes to files", "why_tests_cant": "ranges over all interleavings of the handler and any number of workers", "anchors": ["internal/lsp/workspaceStore.go: newIndexer, changeDocument, openDocument, closeDocument", "analysis/store.go: GetOrCreateDocument, OpenDocument, CloseDocument, CompareAndIndexDocument, DeleteDocument, releaseDocIfNotOpen, PrepareForIndexing, FinishIndexing", "analysis/document.go: Load, CloneForMutate, ApplyChanges, Lock, Unlock"]}
{"id": "C110", "title": "Background indexing leaves the index of an open file right", "statement": "While background workers index files at the same time: between the messages, what the index records about an open file is the complete set of symbols of the text the editor has, if no worker was busy with this file while it was opened or changed, none was about to delete it, and the clean-up at the end of a pass did not remove it. Without this a worker that holds the document from before a change can write it to the index after the new one.", "quantifier": "every schedule of messages, workers, passes and writes to files", "why_tests_cant": "ranges over all interleavings of the handler and any number of workers", "anchors": ["internal/lsp/workspaceStore.go: newIndexer, changeDocument, openDocument, closeDocument", "analysis/store.go: GetOrCreateDocument, OpenDocument, CloseDocument, CompareAndIndexDocument, DeleteDocument, releaseDocIfNotOpen, PrepareForIndexing, FinishIndexing", "analysis/document.go: Load, CloneForMutate, ApplyChanges, Lock, Unlock"]}
{"id": "C111", "title": "Locks of documents", "statement": "Two calls never have the lock of one document at the same time. The calls never wait for each other in a circle: a call that cannot go on waits for one that can. Every message and every job of a worker is done after at most twelve steps of its own.", "quantifier": "every schedule of messages, workers, passes and writes to files", "why_tests_cant": "ranges over all interleavings of the handler and any number of workers", "anchors": ["internal/lsp/workspaceStore.go: newIndexer, changeDocument, openDocument, closeDocument", "analysis/store.go: GetOrCreateDocument, OpenDocument, CloseDocument, CompareAndIndexDocument, DeleteDocument, releaseDocIfNotOpen, PrepareForIndexing, FinishIndexing", "analysis/document.go: Load, CloneForMutate, ApplyChanges, Lock, Unlock"]}
{"id": "C112", "title": "The index never has half of a file", "statement": "While any number of background workers are busy, also several with the same file, and files are written at the same time: as long as the editor sends nothing about a file, what the index records about it is the complete set of symbols of one text that the file has had. With requests of the editor for this file it is not so: a hover analyses the document without its lock.", "quantifier": "every schedule of messages, workers, passes and writes to files", "why_tests_cant": "ranges over all interleavings of the handler and any number of workers", "anchors": ["internal/lsp/workspaceStore.go: newIndexer, changeDocument, openDocument, closeDocument", "analysis/store.go: GetOrCreateDocument, OpenDocument, CloseDocument, CompareAndIndexDocument, DeleteDocument, releaseDocIfNotOpen, PrepareForIndexing, FinishIndexing", "analysis/document.go: Load, CloneForMutate, ApplyChanges, Lock, Unlock"]}
{"id": "C113", "title": "The file that a URI stands for", "statement": "The server reads the file that the editor means: for every absolute path the path read for the editor's URI of it is that path, exactly if the path has none of the characters `+`, `%` and `:`. For a path with a drive (`/c:/a/b`) the file `c:\\a\\b` is read, if it has no `+` and no `%`.", "quantifier": "every sequence of bytes as a path", "why_tests_cant": "ranges over all paths; what goes wrong depends on single characters", "anchors": ["util/uri.go: URIToPath", "internal/lsp/protocol/fs.go: FileFS.ReadFile"]}
{"id": "C114", "title": "The URI of a file found in a folder", "statement": "A pass over a folder gives every file a URI, and different files different ones. It is the URI that the editor uses for the file, exactly if the path does not have both a space and one of the characters `$&+,:;=@`; and the file is read from where it was found, exactly if the path has none of `+`, `%` and `:`. This is for absolute paths without a drive and without backslashes.", "quantifier": "every sequence of bytes as a path", "why_tests_cant": "ranges over all paths; escaping is undone and done again several times on the way", "anchors": ["util/uri.go: PathToURI, DecodeURIFromQuery, URIToPath", "internal/lsp/workspaceStore.go: indexFolder, newCreator"]}
{"id": "C115", "title": "The URI of a file that the editor reports", "statement": "A file that the editor reports as created, changed or deleted is indexed or removed under the URI that was reported, if its path has no control characters and none of the characters `!$&'()*+,:;=@[]?#%`.", "quantifier": "every sequence of bytes as a path", "why_tests_cant": "ranges over all paths", "anchors": ["util/uri.go: DecodeURIFromQuery", "internal/lsp/workspaceStore.go: newCreator, newDeletor", "internal/lsp/sync.go: didChangeWatchedFiles"]}
{"id": "C116", "title": "The directory of a folder's index", "statement": "For every folder whose URI has a path, in particular every file URI of an absolute path, there is a directory name; it is one component of a path (no slash, not `.` or `..`); two folders share it only if the first eight digits of the MD5 hashes of their URIs agree.", "quantifier": "every URI", "why_tests_cant": "ranges over all URIs", "anchors": ["util/uri.go: GetURIID", "internal/lsp/workspaceStore.go: addView"]}
{"id": "C117", "title": "What hovering says about a function or method", "statement": "Hovering over a function shows its header as code: `function name(parameters): types` with the declared name, all declared parameters in their order, each with its declared type and the types of its `@param` tag (under their full names, `[]` for arrays, `|` between them, each once), its name and its default value as written, and the types of the `@return` tags; below it the description from the doc comment. For methods the visibility as written (public if none is) and `static` come first and the class below. This holds for what is read back from the index.", "quantifier": "every declaration with any number of parameters, types and tags, with any doc comment, under any imports; every URI; every behaviour of the Markdown converter", "why_tests_cant": "ranges over all declarations and doc comments", "anchors": ["internal/lsp/symbolConverter.go: functionsToHover, methodsToHover, concatDescriptionIfAvailable", "analysis/function.go, analysis/method.go, analysis/parameter.go: fields, GetReturnTypes, GetDescriptionHTML", "analysis/phpDocComment.go"]}
{"id": "C118", "title": "What signature help says about a function or method", "statement": "The signature that is shown while a call is typed reads `name(parameters)` with the same texts for the parameters as hovering, one parameter entry for each declared parameter, in order, whose label is the text of that parameter and is found in the signature at its place; the documentation is the description of the function.", "quantifier": "every declaration with any number of parameters, types and tags", "why_tests_cant": "ranges over all declarations and doc comments", "anchors": ["internal/lsp/signature.go: signatureHelp, hasParamToSignatureInformation", "analysis/parameter.go"]}
{"id": "C119", "title": "What hovering says about classes, interfaces, traits, properties and constants", "statement": "Hovering shows `class Name extends \\Parent implements I, J` with the full name of the parent and the interfaces as written, `interface Name extends I, J` with the bases as written if none of them begins with a backslash, `trait Name`, `private static $name: types` with the visibility and `static` as written and the types of the first `@var` tag, `const NAME = value` and `define('\\Full\\NAME', value)` with the value as written; below it the class for members and the description (for properties the one of the `@var` tag; for constants outside classes the full name and the value come before it). This holds for what is read back from the index.", "quantifier": "every declaration, with any doc comment, under any imports", "why_tests_cant": "ranges over all declarations and doc comments", "anchors": ["internal/lsp/symbolConverter.go: formatClasses, formatInterfaces, traitsToHover, propertiesToHover, classConstsToHover, formatConsts, formatDefines", "analysis/class.go, analysis/interface.go, analysis/trait.go, analysis/property.go, analysis/classConst.go, analysis/const.go, analysis/define.go"]}
{"id": "C120", "title": "What is said about deprecated names", "statement": "A declaration counts as deprecated exactly if its doc comment has a `@deprecated` tag, also after it was read back from the index, and the message is `X is deprecated`, followed by `: Since V`, `: text` or `: Since V - text` with the version and the text of the first such tag.", "quantifier": "every function, method, class, interface, property, class constant and constant, also of `define`, with any doc comment", "why_tests_cant": "ranges over all declarations and doc comments", "anchors": ["analysis/diagnostic.go: deprecatedDescription", "analysis/phpDocComment.go: deprecatedTag, deprecated, serialiseDeprecatedTag, deserialiseDeprecatedTag"]}
{"id": "C121", "title": "Marks for syntax errors", "statement": "Publishing diagnostics marks every syntax error of the document outside of doc comments exactly once, in the order of the text, as an error. The mark covers the text that the parser skipped, or the token it did not expect if it skipped nothing, and says which token was not expected and which one was. Computing the marks fails exactly if one of these errors has neither skipped tokens nor an unexpected token.", "quantifier": "every syntax tree with any number of errors at any depth, every text", "why_tests_cant": "ranges over all syntax trees", "anchors": ["analysis/diagnostic.go: GetParserDiagnostics, parserErrorToDiagnostic", "analysis/document.go: errorRange", "util/traverser.go: Traverse, realTraverse"]}
{"id": "C122", "title": "Names of parameters at arguments", "statement": "For each call of a document, in the order of the text, the names of the parameters of the first declaration the call refers to are shown: the name of parameter i at argument i, for as many as there are of both, where the arguments are the expressions between the commas. While the cursor is in argument i, signature help highlights parameter i.", "quantifier": "every syntax tree that is Parsed, with any number of calls and arguments, every assignment of declarations to calls, every cursor position", "why_tests_cant": "ranges over all documents and positions", "anchors": ["internal/lsp/signature.go: documentSignatures, signatureHelp", "analysis/argumentList.go: newArgumentList, GetArgumentRanges", "analysis/document.go: HasTypesBeforePos", "analysis/symbol.go: TraverseDocument"]}
{"id": "C123", "title": "Completions are offered only where they belong", "statement": "Completion offers traits only in the list of a `use` in a class, and there nothing else; functions and constants only at a name in an expression; only interfaces after `implements` and after `extends` of an interface; only classes after `new`; only classes and interfaces at other names of classes. Variables are offered only at variables and in the text of strings with variables; members only in accesses to members.", "quantifier": "every syntax tree, every cursor, every index, every word, every symbol under the cursor", "why_tests_cant": "ranges over all syntax trees, positions and contents of the index", "anchors": ["internal/lsp/completion.go: completion", "util/traverser.go: NodeStack.Parent", "analysis/document.go: NodeSpineAt"]}
{"id": "C124", "title": "Completions are offered where they belong", "statement": "Wherever the cursor is in or directly behind a name in an expression, after `implements`, `extends` of an interface, `use` in a class or `new`, a type, a class before `::`, a variable, or a member or the beginning of one behind `->` or `::`, completion offers the list for that place: of everything for expressions, interfaces, traits, classes, classes and interfaces, variables, members of what is before `->` or `::`, at `$` or a variable behind `::` only properties.", "quantifier": "every syntax tree whose tokens follow each other, every cursor, every index, every word", "why_tests_cant": "ranges over all syntax trees, positions and contents of the index", "anchors": ["internal/lsp/completion.go: completion, fromHasTypes", "util/traverser.go: NodeStack.Parent", "analysis/document.go: NodeSpineAt"]}
{"id": "C125", "title": "Go to definition follows the current files", "statement": "After any history of indexing, re-indexing, deleting, restarting and crashing, go to definition leads to declarations of the current versions of the files. A name of a class, interface, trait, function or constant leads to exactly those of that name in files that can be opened (a class name before `::` and an interface name must not begin with the alias of an import). An access to a member leads only to members of that name of the declarations the type consists of, to private ones only from where they may be used, and through a class name only to static ones. A call of a method of an object leads to exactly the public method in the nearest class of the chain of parents, if the nearer ones and their traits have none of this name, no two classes (or interfaces, or a class and an interface) are called the same, and the name is spelled alike everywhere.", "quantifier": "every history of the index, every name, every access, every chain of parents of any length", "why_tests_cant": "ranges over all histories, including crashes, and over all sets of files", "anchors": ["internal/lsp/definition.go: definition", "analysis/query.go: Query", "analysis/store.go: Store", "util/uri.go: IsURINavigatable"]}
{"id": "C126", "title": "What hovering shows is what the current files declare", "statement": "After any history of indexing, re-indexing, deleting, restarting and crashing, hovering over a name of a class, interface, trait, function or constant shows the texts of exactly the declarations of that name in the current versions of the files, as declared there; a called function is shown once. If the current version of a file declares a function of which no other current function has the name, then hovering over a call that resolves to it shows `function name(parameters): types` with the name, the parameters in order with types and default values, and the types of the `@return` tags as written in that version of the file, then its description. Likewise a class, interface, trait, constant or `define` of a current file that is the only one its name stands for is shown with the keyword it was declared with, the names it extends and implements or its value, as written in that version of the file.", "quantifier": "every history of the index, every name, every declaration in a current file", "why_tests_cant": "ranges over all histories, including crashes, over all sets of files, and over all declarations with any number of parameters", "anchors": ["internal/lsp/hover.go: hover", "internal/lsp/symbolConverter.go: formatClasses, formatInterfaces, formatConsts, formatDefines, functionsToHover, traitsToHover", "analysis/query.go: Query", "analysis/store.go: Store", "analysis/function.go: newFunction"]}
{"id": "C127", "title": "Marks for deprecated uses follow the current files", "statement": "After any history of indexing, re-indexing, deleting, restarting and crashing, in which the current files have no two classes and no two interfaces of one name: the marks in a document are at its uses, at most one at each and in their order. Each is because of a deprecated declaration in the current version of a file: one of the name that is used (class, interface, function, constant, or a constant of the named class itself whose name starts as written), or a method or property which a type of the object has under this name and which may be used there. Conversely every use of the name of a deprecated class, interface, function or constant is marked, wherever it is in the document. A call of a function that is declared once is marked if and only if the doc comment of the function in the current version of its file has an `@deprecated` tag.", "quantifier": "every history of the index, every document with any number of uses", "why_tests_cant": "ranges over all histories, including crashes, and over all documents and all positions in them", "anchors": ["analysis/diagnostic.go: DeprecatedDiagnostics", "analysis/query.go: Query", "analysis/store.go: Store", "analysis/phpDocComment.go: deprecated", "analysis/function.go: newFunction"]}
{"id": "C128", "title": "Searching the workspace for a symbol", "statement": "After any history of indexing, deleting, restarting and crashing of any number of folders, a request for the symbols of the workspace is answered. The entries are declarations of the current versions of files, each declaration of a folder at most once, with its kind, its place and its full name; for a member, its own name and that of its class. What is listed was declared, in the current or an earlier version, under a name of which a word begins with a word of the query, whatever the case. If the list has fewer than 1000 entries, every declaration in any folder whose current name is matched is listed. The list never has more than 999 entries and nine for each folder. An empty query gives an empty list. (Matching is for queries without backslash; global variables are not listed.)", "quantifier": "every number of folders, every history of each, every query", "why_tests_cant": "ranges over all histories of all folders and over all queries", "anchors": ["internal/lsp/symbol.go: workspaceSymbol", "internal/lsp/server.go: baseSearchOptions", "analysis/store.go: SearchClasses, SearchConsts, SearchClassConsts, SearchDefines, SearchFunctions, SearchInterfaces, SearchMethods, SearchProperties, SearchTraits, SearchOptions"]}
{"id": "C129", "title": "Opening a folder", "statement": "Whatever happened to the index of a folder before (indexing, deleting, crashes, upgrades), opening the folder succeeds. Afterwards every bundled file and every PHP file found on the disk is indexed with the content it has now, files that are no longer found are gone, and other documents are as before, or gone if the index was of an older release. If all documents known before that are not files of the disk are still bundled, every lookup answers as in an index built from scratch.", "quantifier": "every history of the index, every set of bundled files and of files on the disk, every recorded version", "why_tests_cant": "ranges over all earlier histories including crashes, and over all states of the disk", "anchors": ["internal/lsp/workspaceStore.go: addView, indexFolder", "analysis/store.go: NewStore, Migrate, LoadStubs, PrepareForIndexing, CompareAndIndexDocument, FinishIndexing", "stub/phpstorm.go: Walk, GetURI"]}
{"id": "C130", "title": "Signature help after any history of the index", "statement": "Whatever happened to the index before, signature help inside the parentheses of a call describes what is declared in the current versions of the files. For a function call these are exactly the functions with the name to which the call resolves (against the last import table of the file), each once. For a method call on an object of one class, and for the creation of an object, it is the method (or constructor) of the nearest class that declares one, if that is public, and no other. The label shows the declared name, with the modifiers of a method, and every declared parameter in order with its types, name and default value; the parameters are listed so and the description is that of the doc comment; descriptions of parameters are not shown.", "quantifier": "every history of the index, every call of a function, method or constructor, every inheritance chain", "why_tests_cant": "ranges over all histories of the index including crashes, and over all class hierarchies", "anchors": ["internal/lsp/signature.go: signatureHelp, hasParamToSignatureInformation", "analysis/functionCall.go: ResolveToHasParams", "analysis/methodAccess.go: ResolveToHasParams", "analysis/classTypeDesignator.go: ResolveToHasParams", "analysis/query.go: GetClassConstructor, GetClassMethods"]}
{"id": "C131", "title": "Completion of members after any history of the index", "statement": "Whatever happened to the index before, everything that is proposed after `->` and `::` is a member declared in the current versions of the files: it belongs to a class, a parent, a trait (methods only) or an interface that one of the types of the expression leads to, its name fits what was typed, and it may be used there by the editor's rule of visibility. For an object or a name of one class the list is also complete: the name of every member of the class that fits and may be used is there, no name is there twice, and of several members of a name the one of the nearest class that may be used is the one proposed. Methods insert parentheses, with the cursor between them if the method takes parameters. If no class extends itself, the answer always comes.", "quantifier": "every history of the index, every expression, everything typed, every hierarchy of classes", "why_tests_cant": "ranges over all histories of the index including crashes, all hierarchies and all words", "anchors": ["internal/lsp/completion.go: memberAccessCompletion, scopedAccessCompletion", "internal/lsp/symbolConverter.go: methodToCompletionItem, propToCompletionItem, classConstToCompletionItem", "analysis/query.go: SearchClassMethods, SearchClassProps, SearchClassClassConsts, ReduceAccess, ReduceStatic"]}
{"id": "C132", "title": "Questions about members are answered", "statement": "If no class extends itself, directly or through others, then go to definition, hovering, the marks for deprecated uses, and completion after `->` and `::` end for every request, whatever the interfaces extend and the traits use: a number of rounds for all loops can be named from the classes alone. Signature help ends for every call without any condition.", "quantifier": "every set of classes, interfaces and traits without a circle of parents, every request", "why_tests_cant": "ranges over all class hierarchies and all documents", "anchors": ["analysis/query.go: GetClassMethods, GetClassProps, GetClassClassConsts, GetInterfaceMethods", "internal/lsp/definition.go: definition", "internal/lsp/hover.go: hover", "internal/lsp/signature.go: signatureHelp", "analysis/diagnostic.go: DeprecatedDiagnostics", "internal/lsp/completion.go: memberAccessCompletion, scopedAccessCompletion"]}
{"id": "C133", "title": "Types of expressions after any history of the index", "statement": "Whatever happened to the index before and whatever was asked before, each type that the editor shows for an expression comes from the file itself or from a declaration in the current version of some file: evaluating the program on types, where a variable keeps the types it was given and a call, an access or a global variable has exactly the types that the current declarations of that name give, yields it at that place. Declarations of older versions or of deleted files give no types. Conversely, no type is missing that the evaluation yields with the declared types of global variables, functions and the methods and properties that classes declare themselves and that may be used there (public ones; after $this, self and static also the class's own private ones, and on other objects of the class around), in programs that do not use the value of an assignment, where no expression may have one class at two array depths, and if no class extends itself. Names of functions are read as in the last namespace of the file.", "quantifier": "every history of the index, every program, every state of the caches of a request", "why_tests_cant": "ranges over all histories of the index including crashes, all programs and all earlier lookups of the request", "anchors": ["analysis/variable.go: Variable.Resolve", "analysis/functionCall.go: FunctionCall.Resolve", "analysis/methodAccess.go: MethodAccess.Resolve", "analysis/propertyAccess.go: PropertyAccess.Resolve", "analysis/scopedMethodAccess.go: ScopedMethodAccess.Resolve", "analysis/scopedPropertyAccess.go: ScopedPropertyAccess.Resolve", "analysis/query.go: GetClassMethods, GetClassProps, GetInterfaceMethods", "analysis/store.go: GetGlobalVariables, GetFunctions"]}
{"id": "C134", "title": "Which files of a folder are indexed", "statement": "Whatever happened to the index before, opening a folder that exists on the disk succeeds, and afterwards the files of the disk that the index knows are exactly the files in the folder, at any depth, whose names end in .php and that can be read: each once, under the URI that the editor uses for it, with the content it has on the disk. Files that are gone are forgotten; bundled files are known; documents of other schemes stay as they were, or are gone after an upgrade. This holds if the paths have none of the characters that the server's URIs cannot carry (a plus or percent sign, a colon, a backslash; a space together with one of $&,;=@) and no other open folder contains this one or is inside of it.", "quantifier": "every directory tree on the disk, every history of the index", "why_tests_cant": "ranges over all directory trees of any depth and all histories of the index", "anchors": ["internal/lsp/protocol/fs.go: ListFiles, ReadFile, ConvertToURI", "internal/lsp/workspaceStore.go: addView, indexFolder, newCreator", "analysis/store.go: CompareAndIndexDocument, PrepareForIndexing, FinishIndexing", "util/uri.go: PathToURI, URIToPath, DecodeURIFromQuery"]}
{"id": "C135", "title": "Types of global variables", "statement": "After any history of indexing, what is known anywhere in the workspace about the types of a global variable is exactly what the current files say in their global statements. A file says it with the @global tag for that variable in the doc comment that ends on the line above the statement (the first such tag; its names are resolved with the imports of that file), and with what is assigned to the variable after the first global statement for it in the file. When a file has several global statements for the variable, the last one that has any type counts.", "quantifier": "every sequence of global statements and assignments in every file, every history of the index", "why_tests_cant": "ranges over all doc comments, all sequences of statements and all histories of the index", "anchors": ["analysis/globalVariable.go: newGlobalDeclaration, newGlobalVariable, applyPhpDoc, GetKey", "analysis/assignment.go: analyseVariableAssignment", "analysis/document.go: getGlobalVariable, getValidPhpDoc", "analysis/phpDocComment.go: globalTag", "analysis/store.go: GetGlobalVariables"]}
{"id": "C136", "title": "Accepting a completed name", "statement": "After any history of indexing, an item that completion of names offers can be accepted: with the use, use function or use const statement that the item adds, the inserted name refers to the offered class, interface, trait, function or constant, and go to definition on it leads to the declaration that was offered, together with exactly the other declarations of that name in the current files. The word typed is the beginning of one segment, and no import of the file hides the name: its short name is not the alias of an import of something else, no class is imported under the full name of a function or constant, and the word does not begin with the name of an import whose alias is the first segment of the name. For a function or constant that is inserted without a statement, no other global one has its short name.", "quantifier": "every history of the index, import table, word, limit, list of names and item of it", "why_tests_cant": "ranges over all histories, all import tables and all words", "anchors": ["internal/lsp/completion.go: nameCompletion, classCompletion, interfaceCompletion, traitCompletion, typeCompletion", "analysis/importTable.go: ResolveToQualified, GetClassReferenceFQN", "internal/lsp/definition.go: definition", "analysis/importTable.go: GetFunctionReferenceFQN, GetConstReferenceFQN"]}
{"id": "C137", "title": "What completion says about an item", "statement": "After any history of indexing, what is said beside an item of completion is what the current files say about the declaration it was made from. A class, interface, trait or constant is shown with its full name; a function with its name and its parameters as they are declared, with types, names and default values; a method also with its visibility and static; a property with the types of its @var tag. The documentation is the description in the doc comment, for constants after the full name and the value, for methods and properties after the class they were found in. An import that the item adds is announced below the detail, with exactly the text that is inserted: the use statement for the full name.", "quantifier": "every history of the index, list of completion, item, declaration and doc comment", "why_tests_cant": "ranges over all histories, all declarations and all words", "anchors": ["internal/lsp/symbolConverter.go: hasParamsDetailWithTextEdit, methodDocumentation, propDocumentation, getDetailFromTextEdit, classToCompletionItem, interfaceToCompletionItem, traitToCompletionItem, methodToCompletionItem, propToCompletionItem, classConstToCompletionItem, descriptionToMarkupContent", "internal/lsp/completion.go: nameCompletion, typeCompletion", "analysis/insertUse.go: GetUseEdit"]}
{"id": "C138", "title": "What hovering over a member shows is right for the current files", "statement": "Whatever the history of indexing, deleting, restarting and crashing: what is shown when hovering over a member access is put together from texts of members that the current version of some file declares, under the name that is written, in a class, interface or trait from which a type of the object has members; every text names the class, interface or trait that declares the member, and private members are shown only where they may be used. For an object of a class, a method call shows exactly the public method of the nearest class that declares one, from the source text of its file to the text on the screen, with that class's name; the class name after `new` shows the nearest public constructor, or the class itself if there is none.", "quantifier": "All histories of the index, all objects, names and positions; all declarations in source files.", "why_tests_cant": "The text depends on what is left in the index after any sequence of edits, restarts and crashes and on any hierarchy of classes over all files.", "anchors": ["internal/lsp/hover.go: hover", "internal/lsp/symbolConverter.go: methodsToHover, propertiesToHover, classConstsToHover, concatScopeIfAvailable", "analysis/query.go: GetClassMethods, GetClassConstructor, MergeMethodWithScope"]}
{"id": "C139", "title": "What hovering over a variable shows", "statement": "Hovering over a variable shows its name and, before it, its types separated by |, each class once. Every type that is shown is one that the code of the file gives the variable at that place or in an earlier assignment, with calls and members having the types that the current versions of the files declare. Every type of the value that was assigned last, and of doc comments and instanceof tests after it, is shown if the current files declare it. This holds for every program and every history of edits, deletions, crashes and restarts.", "quantifier": "all programs of the modelled expressions, all places in them, all histories of the index, all import tables and all earlier questions", "why_tests_cant": "Each test is one snippet with one set of indexed files; the property is about every flow of values through a program and every history of the index.", "anchors": ["/repo/internal/lsp/hover.go:149-151 hover", "/repo/internal/lsp/symbolConverter.go:36-40 wrapCode", "/repo/internal/lsp/symbolConverter.go:357-375 variableToHover", "/repo/analysis/variable.go:69-95 Variable.Resolve, GetTypes", "/repo/analysis/symbolType.go:289-301 TypeComposite.ToString"]}
{"id": "C140", "title": "Declarations have the names that are written", "statement": "Whatever class, interface, trait, function, method, property, class constant or constant the analysis reports for a file, its range is the one of such a declaration in the file and its name is the one written in that declaration. Classes, interfaces, traits, functions and constants have the namespace in front that was declared last before them; members have none. If a syntax error leaves several names in a header, the name is the last of them. This holds for every syntax tree, with any errors in it, as long as namespaces are at the outer level and have one name.", "quantifier": "all files, all syntax trees with namespaces at the outer level, all symbols of the analysis", "why_tests_cant": "Each test is one snippet whose symbols are compared with a snapshot; the property is about every symbol of every tree, including broken ones.", "anchors": ["/repo/analysis/class.go:60-120 newClass", "/repo/analysis/interface.go newInterface", "/repo/analysis/trait.go newTrait", "/repo/analysis/function.go newFunction", "/repo/analysis/method.go newMethod", "/repo/analysis/property.go newProperty", "/repo/analysis/classConst.go newClassConst", "/repo/analysis/const.go newConst", "/repo/analysis/define.go newDefine", "/repo/analysis/importTable.go ImportTable.setNamespace"]}
{"id": "C141", "title": "From the text of the files to go to definition", "statement": "After any history of indexing, re-indexing, deleting, restarting and crashing, go to definition on the name of a class, interface, trait, function or constant leads only to declarations that are written in the current texts of files that can be opened, of the sort asked for, at their place in the text, and with the full name asked for: the name in the declaration behind the namespace declared last before it. It leads to every such declaration, unless the same file declares the name twice. On a member it leads only to members that are written under that name in the current texts, or to a class whose doc comment has such a member. The same holds for what the search for symbols in the workspace lists: every entry is written in the current text of some file, with that kind, name and place.", "quantifier": "all histories of the index, all syntax trees of the files with namespaces at the outer level (for the second half: the ones that C68 covers), all names and uses, all import tables", "why_tests_cant": "Each test is one snippet with one index; the property relates the text of every file to every later answer.", "anchors": ["/repo/internal/lsp/definition.go definition", "/repo/analysis/store.go:498-556 writeAllSymbols", "/repo/analysis/symbol.go:111-143 traverseDocument", "/repo/analysis/document.go Load", "/repo/analysis/query.go", "/repo/internal/lsp/symbol.go:132-215 workspaceSymbol"]}
{"id": "C142", "title": "Class names in code stand for the classes PHP means", "statement": "The name of a class before `::`, behind `instanceof`, `extends` or `new`, in a `catch` or in the type of a parameter stands for exactly the class that PHP's rules give: the enclosing class for `self`, `static` and `$this` (before `::`; behind `new` for `static`), its parents for `parent`, and what the imports and the namespace give for other names; an object of an anonymous class is of that class. After any history of the index, go to definition on such a name leads to the classes (or interfaces, traits) that are written under that full name in the current texts, to nothing else, and to each of them unless the same file declares the name twice.", "quantifier": "all names, import tables, enclosing classes, interfaces and traits, all syntax trees of the files, all histories of the index", "why_tests_cant": "Names, aliases, namespaces, enclosing classes and histories combine freely; a test fixes one of each.", "anchors": ["/repo/analysis/classAccess.go newClassAccess", "/repo/analysis/relativeScope.go newRelativeScope, newParentScope, IsNameRelative, IsNameParent", "/repo/analysis/classTypeDesignator.go newClassTypeDesignator, analyseNode, referenceClass", "/repo/analysis/typeDeclaration.go newTypeDeclaration", "/repo/analysis/interfaceAccess.go newInterfaceAccess", "/repo/analysis/traitAccess.go newTraitAccess", "/repo/analysis/binaryExpression.go newInstanceOfTypeDesignator", "/repo/internal/lsp/definition.go definition"]}
{"id": "C143", "title": "Calls and constants lead to what PHP means", "statement": "After any history of indexing, re-indexing, deleting, restarting and crashing, go to definition on the name of a called function or of a constant leads to the functions (constants declared with const or define) that are written in the current texts of files that can be opened under the full name that PHP's rules give: the imported one, else the one of the namespace if it exists, else the global one. It leads nowhere else, and to each of them unless the same file declares the name twice.", "quantifier": "all histories of the index, all syntax trees of the files with namespaces at the outer level, all calls and constants whose names meet the conditions of C27, all import tables", "why_tests_cant": "PHP's fallback from the namespace to the global name depends on everything that is written in all other files at that time; a test fixes one workspace.", "anchors": ["/repo/analysis/functionCall.go newFunctionCall", "/repo/analysis/constantAccess.go newConstantAccess", "/repo/analysis/importTable.go GetFunctionReferenceFQN, GetConstReferenceFQN", "/repo/internal/lsp/definition.go definition"]}
{"id": "C144", "title": "The types of properties: @var and what the constructor assigns", "statement": "A property of a class has exactly the types that the first @var tag of its doc comment names and those of the values that the constructor assigns to it with $this->name = …: of new Foo the class that the imports and the namespace give, of a parameter the types of the parameter. This holds for the first declaration of the name in the class, for constructors below it that contain no class, and for names that are written out.", "quantifier": "all sequences of classes, declarations, @property tags and assignments of a document, all properties, doc comments and assigned expressions", "why_tests_cant": "Which properties an assignment reaches depends on everything that came before it in the file: the order of declarations, other classes before and inside, and the imports.", "anchors": ["/repo/analysis/assignment.go newAssignment, processPropertyAccessAssignment", "/repo/analysis/class.go findProp", "/repo/analysis/property.go newProperty, applyPhpDoc", "/repo/analysis/memberAccess.go readMemberName", "/repo/analysis/document.go addClass, getLastClass"]}
{"id": "C145", "title": "Every use that is written is found", "statement": "Every call of a function, every access of a member with a written-out name, and every name of a class before ::, after new, instanceof, catch and extends, every interface after implements, every trait after use in a class and every type before a parameter that is written in a file is found by the analysis, with the place and the text of its name, so that hover, go to definition and find references work there.", "quantifier": "all documents (syntax trees of any size and depth) and all calls, accesses and names of classes in them", "why_tests_cant": "Whether a use is found depends on all constructs around it, which nest without bound.", "anchors": ["/repo/analysis/expression.go scanForExpression", "/repo/analysis/symbolBlock.go scanNode, scanForChildren", "/repo/analysis/functionCall.go newFunctionCall", "/repo/analysis/methodAccess.go newMethodAccess", "/repo/analysis/propertyAccess.go newPropertyAccess", "/repo/analysis/scopedMethodAccess.go", "/repo/analysis/scopedPropertyAccess.go", "/repo/analysis/scopedConstantAccess.go", "/repo/analysis/memberAccess.go", "/repo/analysis/classTypeDesignator.go", "/repo/analysis/parameter.go newParameter", "/repo/analysis/class.go extends, implements", "/repo/analysis/traitAccess.go processTraitUseClause", "/repo/analysis/try.go processCatchNameList", "/repo/analysis/binaryExpression.go newInstanceOfTypeDesignator"]}
{"id": "C146", "title": "Find references, from the text of the files", "statement": "With the cursor on the name of a method, property or class constant in an access, or of a method or class constant in its declaration, find references lists every access of a member of that name that is written in the current text of an indexed file, at its name, and every declaration of one, if the file's code is of the kind for which uses are found (C145); with the cursor on a call, every call and declaration of a function that the name may mean by the imports there. And in any case every place that is listed is such an access or call, or the name of such a declaration or doc tag, in the current text of an indexed file: nothing from older texts or deleted files.", "quantifier": "all histories of the index, all syntax trees of the files, all names and cursor positions on them", "why_tests_cant": "The answer is put together from the analysis of every file and from everything that happened to the index.", "anchors": ["/repo/internal/lsp/reference.go references", "/repo/analysis/store.go writeAllSymbols, SymToRefs", "/repo/analysis/symbol.go traverseDocument", "/repo/analysis/symbolBlock.go scanNode"]}
{"id": "C147", "title": "The folders that are served are the ones that are watched", "statement": "After any history of adding and removing workspace folders, the editor has been asked to watch exactly the folders that are served: no watcher is asked for twice, none is taken back that was not asked for, and none is left for a folder that is no longer served.", "quantifier": "every finite history of adding and removing folders", "why_tests_cant": "A watcher that is left over or missing comes from the order of earlier additions and removals.", "anchors": ["/repo/internal/lsp/workspaceStore.go addView, removeView, registerFileWatcher, unregisterFileWatcher, getFileWatcherID", "/repo/internal/lsp/server.go DidChangeWorkspaceFolders"]}
{"id": "C148", "title": "Find references on a class, from the text of the files", "statement": "With the cursor on the name of a class in code, or in its declaration in a file with one namespace, find references lists every name before ::, after new, instanceof, catch, extends, implements and use, and every type of a parameter, in the current text of an indexed file whose code is of the kind for which uses are found (C145), that PHP takes for that class by the imports and the namespace at its place; every new static in the class; and every declaration of a class or interface of that name. And every place that is listed is a name in the current text of an indexed file that stands for that class, or the name in such a declaration.", "quantifier": "all histories of the index, all syntax trees of the files, all import tables, all class names and cursor positions on them", "why_tests_cant": "The answer is put together from the analysis and the imports of every file and from everything that happened to the index.", "anchors": ["/repo/internal/lsp/reference.go references", "/repo/analysis/store.go writeAllSymbols, SymToRefs", "/repo/analysis/classAccess.go newClassAccess", "/repo/analysis/classTypeDesignator.go newClassTypeDesignator", "/repo/analysis/typeDeclaration.go newTypeDeclaration"]}
{"id": "C149", "title": "Types of calls and accesses, from the text of the declarations", "statement": "Whatever happened to the index, a call of a function or method has exactly the types that the @return tags of the doc comment on the line above its declaration name, and an access of a property, where it may be used, has exactly the types that the first @var tag of its doc comment names and those of what the constructor below it assigns to $this->name; if the name means one declaration only (the name of a function by the imports at the end of the file).", "quantifier": "all histories of the index, all texts of the declarations, all accesses and call sites, all names", "why_tests_cant": "The answer depends on the text of the declaring file, on what the constructor assigns and on everything that happened to the index.", "anchors": ["/repo/analysis/property.go Property", "/repo/analysis/method.go newMethod", "/repo/analysis/function.go newFunction", "/repo/analysis/class.go Class", "/repo/analysis/propertyAccess.go Resolve", "/repo/analysis/methodAccess.go Resolve", "/repo/analysis/functionCall.go Resolve"]}
{"id": "C150", "title": "Types of inherited members, from the text of the declarations", "statement": "Whatever happened to the index, an access of a property and a call of a method that a class declares, inherits from a class above it or (a method) gets from a trait has exactly the types that the text of the declaration gives: the @return tags of the method, the first @var tag of the property and what the constructor below it assigns; after -> and after ::, where the member may be used, if one declaration of that name only is above the class.", "quantifier": "all histories of the index, all class hierarchies without cycles, all texts of the declarations, all accesses and call sites", "why_tests_cant": "The answer depends on the chain of classes spread over any number of files, on the text of the declaring file and on everything that happened to the index.", "anchors": ["/repo/analysis/query.go GetClassMethods GetClassProps", "/repo/analysis/property.go Property", "/repo/analysis/method.go newMethod", "/repo/analysis/propertyAccess.go Resolve", "/repo/analysis/methodAccess.go Resolve", "/repo/analysis/scopedPropertyAccess.go Resolve", "/repo/analysis/scopedMethodAccess.go Resolve"]}
{"id": "C151", "title": "Types along a chain of accesses", "statement": "Whatever happened to the index and whatever was asked before in the same request, a chain of property accesses and method calls after -> and ::, of any length, has exactly the types that following the declarations link by link gives: at each link the declared types of the property, or the @return types of the method with static and $this replaced by the types of the object before the arrow; links on types without such a member (like null) add nothing; a local variable in between has the types of what was assigned to it and those declared for it.", "quantifier": "all histories of the index, all class hierarchies without cycles, all chains of accesses and calls of any length, all call sites", "why_tests_cant": "Chains have no bound on their length, and each link depends on declarations spread over any number of files and on everything that happened to the index.", "anchors": ["/repo/analysis/propertyAccess.go Resolve", "/repo/analysis/methodAccess.go Resolve", "/repo/analysis/relativeScope.go resolveMemberTypes", "/repo/analysis/symbolType.go merge mergeWithArrayLevel", "/repo/analysis/query.go GetClassMethods GetClassProps", "/repo/analysis/scopedPropertyAccess.go Resolve", "/repo/analysis/scopedMethodAccess.go Resolve"]}
{"id": "C152", "title": "Go to definition at the end of a chain", "statement": "Whatever happened to the index and whatever the same request looked up before to find the types of the object (or class) before the operator, go to definition on a property or a method call leads to exactly the declaration of that member, in the class of the object or in one above it; in particular at the end of a chain of accesses of any length.", "quantifier": "all histories of the index, all class hierarchies without cycles, all chains of accesses and calls of any length, everything a query may have been asked before", "why_tests_cant": "The lookup shares the query, and what it remembers, with the resolution of everything before the operator, so the answer may depend on chains of any length and on declarations in any number of files.", "anchors": ["/repo/internal/lsp/definition.go definition", "/repo/analysis/expression.go ResolveAndGetScope", "/repo/analysis/query.go GetClassMethods GetClassProps SearchedFQNs", "/repo/analysis/memberAccess.go"]}
{"id": "C153", "title": "Hovering at the end of a chain", "statement": "Whatever happened to the index and whatever the same request looked up before to find the types of the object (or class) before the operator, hovering over a property or a method call shows exactly the text of the declaration of that member and the class or trait that declares it; in particular at the end of a chain of accesses of any length.", "quantifier": "all histories of the index, all class hierarchies without cycles, all chains of accesses and calls of any length, everything a query may have been asked before", "why_tests_cant": "The lookup shares the query, and what it remembers, with the resolution of everything before the operator, so the text may depend on chains of any length and on declarations in any number of files.", "anchors": ["/repo/internal/lsp/hover.go hover", "/repo/internal/lsp/symbolConverter.go methodsToHover propertiesToHover", "/repo/analysis/expression.go ResolveAndGetScope", "/repo/analysis/query.go GetClassMethods GetClassProps"]}
{"id": "C154", "title": "Signatures at the end of a chain", "statement": "Whatever happened to the index and whatever the same request looked up before (the types of the object before the operator; for the hints of a document also all calls before this one), the signatures that are shown for a call of a method are those of its declaration, in the class of the object or in one above it, and of nothing else; in particular at the end of a chain of accesses of any length.", "quantifier": "all histories of the index, all class hierarchies without cycles, all chains of accesses and calls of any length, everything a query may have been asked before", "why_tests_cant": "The lookup shares the query, and what it remembers, with everything that was resolved before, which may be all calls of a document and chains of any length.", "anchors": ["/repo/internal/lsp/signature.go signatureHelp documentSignatures", "/repo/analysis/methodAccess.go ResolveToHasParams", "/repo/analysis/scopedMethodAccess.go ResolveToHasParams", "/repo/analysis/query.go GetClassMethods"]}
{"id": "C155", "title": "An overriding method is the one that is shown", "statement": "Whatever happened to the index and whatever the same request looked up before, go to definition and hovering on a call of a method lead to the declaration that overrides all others of its name, the one in the class of the object or in the nearest class above it, and to nothing else; in particular at the end of a chain of accesses of any length. The signatures that are shown for the call are those of that declaration, and the types of the call are the types it returns, with those of the object for static and $this.", "quantifier": "all histories of the index, all class hierarchies without cycles in which methods override others at any depth, all chains of accesses and calls, everything a query may have been asked before", "why_tests_cant": "Which declaration is the nearest depends on the order in which a lookup walks a hierarchy of any depth, and the lookup shares what it remembers with everything that was resolved before in the request.", "anchors": ["/repo/internal/lsp/definition.go definition", "/repo/internal/lsp/hover.go hover", "/repo/analysis/query.go GetClassMethods ReduceAccess ReduceStatic MergeMethodWithScope", "/repo/internal/lsp/signature.go signatureHelp", "/repo/analysis/methodAccess.go Resolve", "/repo/analysis/scopedMethodAccess.go Resolve"]}
