# Formal model of phpintel (john-nguyen09/phpintel, pinned commit in /repo)

The deliverable is a Lean 4 model (under `lean/Verif/`) of the logic of the phpintel language
server and machine-checked proofs of the properties in `properties.jsonl`.

## Layout

For each area `X` there are up to four kinds of files

* `Verif/X/Model.lean`  - executable model; each definition cites file and lines in /repo.
* `Verif/X/Spec.lean`   - small, independent specification (what a user would expect).
* `Verif/X/Lemmas.lean` - helper lemmas.
* `Verif/X/Props.lean`  - the property theorems (named `Cnn_...`) and their non-vacuity `example`s.

`Verif.lean` imports everything.

## Trusted base

* Lean 4.33.0's kernel. Every theorem depends at most on `propext`, `Classical.choice` and
  `Quot.sound`; there are no axioms of our own, no `sorry`/`admit`, no `native_decide`/`bv_decide`.
* The reading of the Go code: the code is not executed; every model definition cites what it models.
* Outside the model (taken as parameters, or as the stated contracts):
  - the PHP lexer/parser (go-phpparser): trees, tokens and symbols are inputs of the models;
  - goleveldb and go-immutable-radix: modelled by their contract, an ordered map from byte strings
    to byte strings with atomic batch writes and ordered prefix iteration;
  - xorfilter and xxhash: a filter is any predicate that answers yes on every inserted key;
  - SHA-1/MD5: an arbitrary function; where a theorem needs collision freedom the hypothesis says so;
  - Unicode tables (`unicode.IsUpper`, `strings.ToLower`, ...): parameters;
  - JSON, OS files, goroutine scheduling by the Go runtime (modelled as explicit interleavings),
    memory safety of `unsafe`, performance.
* Go strings are byte lists (`List UInt8`); `int` is 64-bit; nil is an explicit case; a panic is
  an explicit failure value (`none`/`Except`), never a default value.

## Method for false properties

Where the code violates the property as a user would state it, the property keeps its full
statement in `properties.jsonl`; the development proves (a) a theorem `Cnn_..._false...` (negation, with a
concrete witness run through the model) and (b) `Cnn_..._partial` theorems stating under which explicit,
decidable condition the property does hold. The section "Findings" lists each of them.

## Plan per property

| Id | What is modelled | How it is proved |
|----|------------------|------------------|
| C01 | encoder/decoder of storage/encoding.go on byte lists, decoder returns `none` on panic | induction over a list of typed values: decode (encode vs ++ rest) = (vs, rest) |
| C02 | Serialise/Read of all ten symbol kinds | round-trip law per kind; negation for fields that are dropped (class-constant visibility, parameter description) |
| C03 | same | for each kind: every strict prefix of an encoding decodes to failure |
| C04 | DB interface as ordered association list; op histories | refinement to `Key -> Option Value` |
| C05 | WriteBatch of both back ends | decision on error; equality with sequential application |
| C06 | PrefixStream with Stop; BytesPrefix range of goleveldb | list lemmas: filter by prefix, sortedness, take |
| C07 | key scheme of all collections; GetX functions | prefix analysis with separator byte; negation for class constants |
| C08 | SyncDocument/DeleteDocument over db, greb | invariant over histories, refinement to map URI -> symbols; negation for keys without URI |
| C09 | completion DB, search functions | soundness for every history; negation for namespaces |
| C10 | DeleteDocument | corollary of C08 machinery |
| C11 | DeleteFolder | negation + partial under separator condition |
| C12 | CompareAndIndexDocument | step lemma; hash as parameter |
| C13 | PrepareForIndexing/FinishIndexing | set reasoning over pass histories |
| C14 | SyncDocument split at durable writes | crash-point enumeration; negation + partial |
| C15 | SearchOptions, search loops | counting lemma; negation for scoped class search |
| C16 | searchCompletions | set equality with spec, Nodup |
| C17 | wordtokeniser | invariant of the state machine, bounds of slices |
| C18 | referenceIndex with abstract filter | refinement, filter as oracle without false negatives |
| C19 | load from db | invariant relating memory and db |
| C20 | CanonicaliseURI | negation + partial |
| C21 | calculateLineOffsets, lineAt | recursion vs declarative spec; negation for lone CR |
| C22 | positionAt/OffsetAtPosition | negation (multi-byte) + partial (ASCII) |
| C23 | ApplyChanges | induction over edits; negation for CR/LF split |
| C24 | NewTypeString/ToString | recursion on suffix; negation (panic) + partial |
| C25 | TypeComposite | fold lemmas |
| C26 | GetClassReferenceFQN | case analysis against spec |
| C27 | GetFunctionReferenceFQN etc. | negation + partial |
| C28 | ImportTableAtPos | sort.Search specification |
| C29 | query worklists | termination measure; divergence proof for cyclic extends |
| C30 | GetClassMethods | worklist invariant = reachability; for a query that was used before an invariant over all lookups (Query/Bare.lean, Query/PropsOrder.lean) |
| C31 | IsInherited*, Reduce* | decision table |
| C32 | Reduce* | fold lemma |
| C33 | headerStream Read and Write on bytes | round trip over message lists, from the characterisation of C34; negations for large and empty messages |
| C34 | headerStream.Read | Read succeeds exactly on header lines with a length followed by that many bytes (iff with a declarative grammar) |
| C35 | request goroutines as a state machine, a schedule is a list of steps | invariant over all schedules; negation for cancelled requests |
| C36 | the hand-off chain of Run in the same machine | invariant; ordering of starts; no deadlock; decreasing measure |
| C37 | Call and the response branch of Run with the pending table | invariant; negations: unknown id, second answer, cancelled call block for ever |
| C38 | initialize/initialized/shutdown with mutex | negation + partial |
| C39 | getStore | negation + partial |
| C40 | creator/analyser workers with wait group | negation + partial |
| C41 | document store + sync notifications | refinement; negation when disk differs |
| C42 | watched-files handling | negation + partial |
| C43 | documentSymbol | tree induction |
| C44 | traverser | tree induction |
| C45 | VariableTable | sortedness invariant, search specification |
| C46 | signatureHelp | search specification |
| C47 | stable sort with unpermuted scores | permutation; negation of sortedness |
| C48 | indexablesFromNamespaceName | list induction |
| C49 | InsertUseContext | list induction |
| C50 | ComparePos, IsInRange | case analysis, omega |
| C51 | search functions over the completion index | membership in the result, for every history; negation for stale words |
| C52 | wordtokeniser | characterisation of the positions at which words start |
| C53 | import tables of a file as a run over its declarations and references | induction over the events |
| C54 | TypeComposite.ToString | split/join lemma; negation for array types |
| C56 | SearchClassMethods with the cached slice that it overwrites | membership in the filtered list; negation for a second keyword |
| C55 | ResolveToQualified, then GetClassReferenceFQN on the table with the inserted use | case analysis; negations |
| C57 | goroutines in headerStream.Write with its lock | invariant: output is a concatenation of frames; progress |
| C58 | Deliver as a decision table | case analysis, exact characterisation of panics |
| C59 | reading and writing of ids | round trip; negations |
| C60 | Migrate and the version record; an upgrade is one more operation of the histories of C08-C18 | invariant over histories; negation for the completion index |
| C61 | addView/removeView with the files that an open index holds | invariant over histories; negation |
| C63 | the traversals of document.go that look for a symbol by position | the last visited symbol with the property, from C44 |
| C64 | ClassAt, GetClassScopeAtSymbol, getClassAtPos | the same; negations outside of classes and for anonymous classes |
| C65 | ArgumentListAndFunctionCallAt | the same; negation for anonymous classes |
| C66 | GetVariableTableAt on the tree of scopes | tree induction |
| C67 | the same model; the specification walks the syntax tree and lists variables with the innermost function, declarations with their full names, members with their class | induction over syntax trees: what is to be found in a node is found when the node is scanned and stays found; negations for constructs that are not scanned |
| C68 | the same | the same, with the namespace and the current class as part of the induction; negations for `define` and native names |
| C69 | the same | the same; negation for anonymous classes inside classes |
| C70 | scanNode, scanForExpression and all constructors on arbitrary syntax trees | structural induction over syntax trees: each node adds symbols, recordings and scopes within its own extent; the hypotheses of C45 and C63-C66 follow; negation for class constants |
| C71 | doc comments and class headers in the same model | invariant of the analysis (every member has a tag and a class on the next line); the run over the comment, the tokens behind it and the class; negations |
| C72 | rename on the tables that the analysis makes | C66, C67 and C73 together with the geometry of positions in a tree; negations for closures, parameters and lost variables |
| C74 | the expressions with types that the analysis builds, their resolution against the index, and the variables they go through | a small evaluator of programs on types as specification; simulation between the analysis and two runs of the evaluator (upper and lower bound); negations |
| C75 | the resolution of an expression that the document keeps | histories of requests with a changing index; negation |
| C76 | publication of diagnostics with the debouncer: handler in two halves, timer, timer functions that run, messages sent | invariant over all schedules; induction over uninterrupted actions; negations by schedules |
| C77 | the marks for deprecated declarations per kind of use, with one query for the document | soundness by reachable states of the query; equality with go to definition for a new query; negations |
| C78 | go to definition per kind of use on top of the model of the queries (C30-C32) and import tables (C26, C27) | specification of what a use refers to; nearest class by the order of the lookup (C30_order); negations |
| C79 | from the nodes of a declaration to the record: modifiers (Decl) | folds over children; specification by which keywords occur |
| C80 | parameters with name, type, value, doc comment | per element of the list; specification of how a parameter is written |
| C81 | doc comments: tags, types, which declaration they apply to | specification by the tags in the tree |
| C82 | types in texts of doc comments | exact characterisation by the parts of the text; PHP's rules of names (C26); negation for `self[]` |
| C83 | records of classes and interfaces: parent, interfaces, traits | folds over the header and the members; PHP's rules of names; negations for interfaces |
| C84 | use declarations and groups on the import tables | table before and after; negations for mixed groups and places |
| C85 | constants of files and classes | names and texts; negation for names of native types |
| C86 | the same records | from C80 and the rules of names; negations |
| C87 | the same records | equivalence on lines; negation |
| C88 | hover per kind of use on the same model as C78 | specification of what a use refers to; the nearest constructor along the lineage; negation for case |
| C89 | resolution of a call to what has parameters, on the same model | the same specifications; negations |
| C90 | the lists of name completion with the shared limiter, on the model of the store (C09, C15, C16, C51) | from the theorems on searches; counting below the limit |
| C91 | the same | the same; negation with a limit of one, and in general when no function matches |
| C92 | the searches of member completion with one query, its caches and sets; the access rules; the merged lists | lookups commute with forgetting scores; a lookup of one kind leaves the results and sets of the others alone (frame); order lemmas of C30 from such states |
| C93 | the same for static access | the same |
| C94 | the items of the same lists | by cases; negation with a witness |
| C95 | the same lists for a type that only a trait has | by computation; negation with a witness |
| C96 | variableCompletion over the recordings of the analysis | the order invariant of the analysis, with: no recording counts from before the end of its variable |
| C97 | the line up to the cursor and the search of the regular expression | induction over the line |
| C98 | the same | from C97; negation with a witness |
| C99 | what a document records in the reference index, NodeSpineAt, the handler | the recorded names are compared with what a place names; C18 for the index |
| C100 | the same | the same, with the import table of the beginning of the file; negations with witnesses |
| C101 | the same | the same; negations with witnesses |
| C102 | the same | the same; negations with witnesses |
| C103 | SyncDocument and DeleteDocument cut into their reads and writes of what they share; any number at once | invariant: the state is that of the returned calls in turn, plus what the others wrote ahead; each step refines |
| C104 | the same | the same invariant when nothing is under way; ordered databases with equal entries are equal |
| C105 | the same, with the reference search | the same invariant; filters of other files are untouched |
| C106 | the same | negation with a witness |
| C107 | the same | weaker invariant: the symbols of the recorded versions are there, what is there comes from some version; keys of different files differ |
| C108 | the items of the lists of names | the items of all lists, search by search; negation with a witness |
| C109 | the handler and the workers as calls that make one step at a time, on shared document objects | invariant over all schedules; witness that the restriction is needed |
| C110 | as C109 | invariant over all schedules; witness that the restriction is needed |
| C111 | as C109 | a document that is locked has a call that holds it; a measure that each step reduces |
| C112 | as C109 | invariant over all schedules, with mutual exclusion; witness that the restriction is needed |
| C113 | util/uri.go and the part of net/url that it uses, on bytes | lemmas on escaping by induction over the path; all 256 bytes checked one by one where a fact is about one byte |
| C114 | as C113 | as C113; negations with witnesses |
| C115 | as C113 | as C113; negations with witnesses |
| C116 | GetURIID with the hash as a parameter | case analysis |
| C117 | symbolConverter.go on bytes, on top of the records of Decl and the encoding | the record of a declaration (C80–C82), its round trip (C02), then the text; types by induction over the tags |
| C118 | as C117 | as C117; places in the label by induction over the parameters |
| C119 | as C117 | as C117 with C79, C81, C83, C85 |
| C120 | deprecatedDescription and the tag | the first tag of a doc comment, round trip |
| C121 | diagnostic.go, errorRange and the traversal on trees of tokens, phrases and errors | the errors with their paths by mutual induction; order, membership and texts of the list |
| C122 | the arguments of argumentList.go, documentSignatures over the symbols of an analysed document | traversal as calls in order (C44), the call in front by C65, commas in front of an argument by induction over the list and C46 |
| C123 | the dispatch of completion.go on the phrases around the token and the symbol at the cursor, with the lists of C90-C96 | inversion of the two switch statements; kinds of symbols through the searches of each list |
| C124 | as C123 | the spine of the token at the cursor is the path in the tree (as in C99), then evaluation of the dispatch for every path that begins with the given phrases |
| C125 | the lists of declarations that the queries of C29-C32 and C78 take, computed from the bytes in the store of C07-C14; the answer of definition.go as declarations | every scan by key is a filter of the scan of the collection (keys with separators determine the names); the relations of the queries are those of the live declarations; the search begins with every repetition-free chain of parents |
| C126 | the answer of hover.go for names as bytes, from the bytes in the store | the lists of C125, the round trip of C02 for the fields that are shown (stored declarations show the same text), C117 for the function |
| C127 | the answer of diagnostic.go, DeprecatedDiagnostics, with declarations read off the bytes in the store | one use at a time with the invariant of C29 on the shared query; the relations of C125; C120 for the tag |
| C128 | internal/lsp/symbol.go, workspaceSymbol, over the searches of analysis/store.go with one shared counter | each search as a list that is filtered and cut (search_kind); composition of nine searches; induction over the folders |
| C129 | addView: NewStore, Migrate, LoadStubs, indexFolder, one file after the other | the steps are operations of a history (C08, C13, C60); induction over the bundled files |
| C130 | the answer of signatureHelp, from the bytes in the store | C125's nearest declaration, C89 for the loops of signature help, C118 for the text; what is stored shows the same label |
| C131 | the proposals after `->` and `::`, from the bytes in the store | C92 and C93 over the lookups, with lineage and membership read off the live declarations as in C125 |
| C132 | the loops over the types and the lookups with rounds as bound | a rank from the finite number of classes above; each lookup ends in any state of the cache (C29), so the loops do |
| C133 | what `Resolve` of the expressions asks the index for, on top of the bytes in the store | C74 with the lookups as its world: each lookup result is a live declaration (C125), and a class's own members come first in every cached result |
| C134 | directory trees, `WalkDir` with the function of `ListFiles`, the filter of `indexFolder`, decoding and routing by the workers, reading of the files | mutual induction over trees; C113, C114 and C129 |
| C135 | global statements with their doc comments, assignments that add types, the records in the index | invariant over the events of a file; C82, C07 and C133 |
| C136 | the lists of completed names, the import table after an item is accepted, go to definition | composition of C55, C90, C108 and C125 |
| C137 | kind, detail and documentation of completion items (`Whole/Details.lean`) | C90 and C131 for the declaration, the lemmas of C117 and C119 for the text, cases of `ResolveToQualified` for the import |
| C138 | Hovering over a member after any history | `Whole/HoverMembers.lean` composes the member lookups, the store and the hover texts; soundness from a strengthened C78 (every result is recorded with the scope it was found in), exactness for methods and constructors from the nearest-class lemma of C125, and C117 for the way from the source text |
| C139 | What hovering over a variable shows | Whole/HoverVariables.lean: the text of a variable on top of the types of C133; a list of the places of a program as specification; invariant that no union names a class twice |
| C140 | Declarations have the names that are written | Analyser/Named.lean: an instance of the closure theorem of Analyser/Closed.lean whose predicate relates a declaring node to its name and the namespace in force; the name is read off the header by a small separate function |
| C141 | From the text of the files to go to definition | Whole/Text.lean: the stored symbols of a file are those of the analysis of its syntax tree, in order; composition of C68, C140, C08 and C125 |
| C142 | Class names in code stand for the classes PHP means | Decl/Uses.lean: the types recorded for every use of a class name; specification Means; composition with C141 in Whole/PropsUses.lean |
| C143 | Calls and constants lead to what PHP means | Whole/PropsCalls.lean: the recorded names; of the declarations that exist, code and PHP choose the same (C27), composition with C141 |
| C144 | Types of properties | Decl/Properties.lean: events of a document (class begins, ends, property declared, assignment), the properties of all classes as state; invariant for the class that began last; Decl/PropsProperties.lean: with C81 for the doc comment, C142 for new, and the variable tables of Infer for parameters |
| C145 | Every written use is found | the induction of C68/C69 (Analyser/Find*.lean), now also for calls, accesses and names of classes (the parameter u); Analyser/PropsUses.lean says what a call or an access is in the tree |
| C146 | Find references from the text | References/PropsText.lean: relation between the symbols of the analysis and those that are recorded (Texts), then composition |
| C147 | Folders served are watched | Server/Watchers.lean: the requests of each step; the editor's list of ids as specification; invariant over histories |
| C148 | Find references on a class from the text | References/PropsClassText.lean: types of the names of classes by what is in force at their place (Typed), then composition |
| C149 | C133 with the declarations of C81 and C144 | Whole/PropsTextTypes.lean: what the index gives is what is stored (both directions), then composition |
| C150 | C149 with the members of the classes above | Query/Lineage.lean: the searches reach every class above (properties: in every state of the request); Query/Bare.lean: so do those for methods where no interface is implemented; Whole/PropsTextInherited.lean, PropsTextBare.lean: composition |
| C151 | inductive chains of accesses over the results of C150 | Whole/PropsTextChain.lean: names of the types through memberLoop and methodLoop, induction over the chain |
| C152 | go to definition with a query used before (definitionAfter) | Whole/PropsTextDefinition.lean: the first lookup finds the declaration in every state a query can be in (C150), every lookup finds nothing else; composed with C151_chain |
| C153 | hover with a query used before (hoverAfter) | Whole/PropsTextHover.lean: the one result of the lookups (as for C152) and its text; composed with C151_chain |
| C154 | signature help with a query used before (signaturesAfter) | Whole/PropsTextSignatures.lean: induction over the types before the operator, each lookup leaves the query in a state of C150; composed with C151_chain |
| C155 | the loops of C152 and C153, methods that override others | Query/PropsOrder.lean: the cached and the new answers are in the order of the lineage (invariant over all lookups); Whole/PropsTextOverride.lean: the first of that order is the nearest declaration, induction over the types; Whole/PropsTextOverrideCalls.lean: the same for signatures and the types of calls |
| C73 | the same model as C67 | invariant of the analysis: every symbol, recording and scope has a node in the tree it was made from |
| C62 | documents in memory, on disk and in the index under all notifications | invariant over histories; negations |

## What is modelled

| Module | Code |
|--------|------|
| Common/GoMap | Go maps with byte-string keys as association lists without duplicate keys. The order of iteration of a Go map is not fixed; theorems about iteration talk about sets or hold for the order of the list, whatever it is |
| Common/Position | `protocol.Position`, `Range`, `ComparePos`, `IsInRange`, `CompareRange` with integers instead of floats (positions are whole numbers) |
| Common/Search | `sort.Search`, transcribed from the Go library |
| Encoding | storage/encoding.go and Serialise/Read of the ten symbol kinds |
| Storage | memory, disk and combined key-value stores, batches, iterators |
| Store | analysis/store.go, completion index, reference index, indexing passes, crashes; indexing and deleting at the same time (Concurrent): calls cut into their reads and writes of the databases, the file store and the map of filters, each of which is atomic |
| Tokeniser | analysis/wordtokeniser |
| Document | UTF-8 decoding (transcribed from the Go library), line table, positions, incremental changes, the word before the cursor |
| Types | symbolType.go: parsing and printing of types, unions |
| Imports | importTable.go, the tables of a document, insertUse.go, ResolveToQualified |
| Query | analysis/query.go: the loops over classes, interfaces and traits with their shared sets of searched names and the cache, the access rules, reduction, keyword search; go to definition (internal/lsp/definition.go), hover (internal/lsp/hover.go: which declarations, not their texts), the resolution of calls for signature help (ResolveToHasParams) and marks for deprecated declarations (analysis/diagnostic.go) for the symbols found, given their types |
| Complete | internal/lsp/completion.go: the lists of names with their searches, labels, inserted texts and flags; the lists of members after `->` and `::`, unsorted; the list of variables (in Analyser/PropsVariables); the dispatch of the handler (Where). Documentation and detail of the items are left out |
| Whole | the data that Query takes, computed from the bytes in Store: lists of classes, interfaces and traits, lookups of members, functions and constants, whether a file can be opened, deprecation; go to definition, hovering over names and marks for deprecated uses on top of it. The caches of analysis/query.go (proxies that answer as the store does within one request) are left out |
| References | what a document records in the reference index (`SymToRefs`, `ReferenceFQN` and the loop in `writeAllSymbols` of analysis/store.go), `NodeSpineAt`, internal/lsp/reference.go. Given: the symbol at the cursor (C63) and the types of names |
| Server.Races | the calls of the message handler and of the background workers on shared documents (store.go 314-487, workspaceStore.go 51-92 and 240-256, document.go 92-104), cut into steps. SyncDocument and DeleteDocument are one step; a text stands for its hash |
| Uri | util/uri.go, and `escape`, `unescape`, `Parse`, `ParseRequestURI` and `String` of Go's net/url, transcribed from the Go library; URLs with a host or user are left out |
| Show | internal/lsp/symbolConverter.go, signature texts, `deprecatedDescription` of diagnostic.go; `newClass`, `newInterface`, `newTrait` as stored records |
| Marks | syntax errors of diagnostic.go, errorRange; documentSignatures of signature.go, arguments of argumentList.go |
| Rpc | jsonrpc2/stream.go on bytes; Request, Run and Call of jsonrpc2.go as state machines whose steps are those of the goroutines; the decision table of protocol/server.go; ids of wire.go. Not modelled: JSON itself, the handlers for tracing |
| Server | internal/lsp: life cycle with its lock; workspace folders and their open indexes; the indexing workers as a state machine with shared work channel and wait groups; documents in memory, on disk and in the index; publication of diagnostics with the debouncer |
| Symbols | analysis/traverser.go on symbol trees; the outline (symbolConverter.go, symbol.go); the lookups of document.go by position; VariableTable; scopes; argument ranges; the order of member completions. The swaps of `sort.SliceStable` are those of the Go library up to twenty items and arbitrary beyond |
| Analyser | the analysis of a syntax tree (symbolBlock.go, expression.go and the constructors in class.go, method.go, function.go, variable.go, assignment.go and so on): which symbols are made, in which order, with which range, name and class, which variables are recorded in which scope, and the members and types that doc comments name. Not modelled: types, values, modifiers and descriptions of symbols. Trusted: the parser `go-phpparser`, which is not in the repository, delivers the tokens of a tree one after the other (`Chain`) and phrases of the form described by `Regular` (`OrderSpec.lean`) |
| Infer | the types of expressions: `Resolve` and `GetTypes` of all expressions, the variables they go through (assignment, foreach, instanceof, parameters, use clauses, global). The program is given as `Src`, what the analysis looks at of a syntax tree; which nodes of a tree these are is modelled in Analyser. What the index answers is a parameter (`World`). Not modelled: types of properties that a constructor assigns, names of members in variables (`$this->$x`), sharing of expressions between variables (values instead of pointers) |
| Decl | from the nodes of a declaration to the record that is stored: class.go, interface.go, method.go, function.go, parameter.go, property.go, classConst.go, const.go, use.go, and doc comments (phpDocComment.go) with tags, types and the declaration they apply to. Trusted: which phrases the parser makes for a declaration (the hypotheses such as `ParamWritten`, `ClauseWritten` describe them). Not modelled: descriptions, members declared by doc comments (those are in Analyser) |

## Findings

Each of these is a theorem `Cnn_false_...` with a concrete witness, or a hypothesis of a partial theorem.

* C02: the visibility of class constants and the descriptions of parameters are lost when stored.
* C04/C05: direct writes to the memory store during a batch are lost when the batch is written. The combined store
  delivers a key twice when both halves have it.
* C07: class constants of one class are found under another class whose name extends it.
* C08: two symbols of one file with the same key overwrite each other; class constants of the same class in
  two files overwrite each other.
* C09/C10: namespaces are never checked against the files that declare them; deleting a document looks for
  its completion entries in the wrong store.
* C11: deleting the folder `/a` also deletes `/ab`.
* C12: a file that was opened and not saved can be skipped as unchanged.
* C14: a crash between the symbol list and the completion entries leaves stale symbols for ever.
* C15: limit 0 returns one result; class search with a namespace always claims to be complete; class
  constant and property search with an empty keyword ignores the limit.
* C16: method search with an empty keyword returns nothing; class search in a namespace is case sensitive;
  trait search with a namespace or an empty keyword returns nothing; with an empty keyword only functions
  and interfaces of the root namespace are offered.
* C17: `A`, an undecodable byte, `b` make the word splitter panic.
* C18/C20: documents outside of the workspace folder get the address of another document.
* C21-C23: a lone carriage return shifts the line table; positions are reported in bytes but read in
  UTF-16 code units; characters beyond U+FFFF make incremental changes edit the wrong place.
* C24/C54: the type text `]` panics; `[]` doubles; `Foo|Foo[]` loses `Foo[]`.
* C26/C27: `\Foo` is matched against the aliases; aliases are case sensitive; `Alias\f` as a function drops `\f`;
  a global function wins against the one of the namespace.
* C28: function calls are resolved with the imports of the last block of the file.
* C48: an empty keyword lists a nested namespace once per level.
* C49/C55: with braced or several namespaces `use` is inserted outside of the block; an alias that shadows the
  short name is ignored; the empty word inserts `use ;`.
* C51: words of earlier versions of a name stay searchable.
* C53: `\Foo` counts as a use of the alias `Foo`; `foo` does not.
* C29: the properties and constants of a class whose `extends` runs in a circle are looked up for ever.
* C30: one query asked about two classes loses inherited methods of the second if both implement the same interface;
  traits that use traits, properties of traits and the second declaration of a class are not followed.
* C31: `Foo::m` offers private static members everywhere; `$this->` offers private members of parents; protected
  members of relatives are not offered; the relation of classes for constants is recorded in the wrong direction.
* C32: names that differ in case are reported twice.
* C56: the keyword search overwrites the cached members; harmless as long as a request uses one keyword.
* C33: a message of 2^31 bytes or more cannot be read; an empty one cannot be read.
* C35: a request that is cancelled while its handler runs is never answered (nobody cancels requests at present:
  `$/cancelRequest` is not handled).
* C37: one response with an unknown id, a second response to the same call, or a response to a call whose context was
  cancelled meanwhile stops the server for ever.
* C57: after a failed write the next message follows the torn one.
* C58: any method called without parameters crashes the server.
* C59: the id "" is answered as 0; ids with a fraction are dropped.
* C38: a second `initialize` is refused but keeps the lock: no life-cycle message is answered after it. A refused first
  one counts.
* C39: folders are compared as texts: `/w/ab/x.php` belongs to the folder `/w/a`.
* C40: one file name that cannot be decoded (`100%25.php`) keeps the indexing pass from finishing.
* C41/C62: the text sent with `open` is ignored; closing stores the discarded text, or empties the index of the file.
* C42: a request about a file that is not open leaves a copy that hides the next change on disk.
* C60: an upgrade does not clear the completion index.
* C61: a folder that was removed can not be added again, since its completion index stays open.
* C45: a variable that starts early but stands late in the text stops the marking of uses.
* C22/C23: a position behind the last line is read as the beginning of the last line, so replacing a document from its
  start to `(line count, 0)` keeps the last line.
* C67: variables in `$t += $x` (with spaces), `$x ?? 2`, `$x[0]->m()`, `instanceof $c`, `list($a)` and keys of `foreach` are
  not recorded, and `use(&$x)` records `&$x`; so `$x` is reported as unused although it is used. By reading the model, the
  same holds for `foreach ($a['x'] as ...)`, `($f)()`, `$this->{$name}`, `$$a`, catch variables, static variables,
  heredocs and `finally`.
* C68: `define` in a namespace is stored as a constant of the namespace; `$a = define(...)` and `(define(...))` are not
  stored; a function that is called like a native type is not put into its namespace.
* C69: a method in which an anonymous class is made, and all methods after it, are stored under the anonymous class.
* C70: constants and properties of classes stand behind what is in their values; members from doc comments have the
  range of the comment.
* C71: the doc comment of a function is taken for that of a class on the next line; a comment on the same line as the class
  or with an empty line behind it is not used; `@method` without a name makes a method with the empty name.
* C72: renaming with the cursor on a parameter changes nothing; renaming a variable that a closure uses breaks the closure or
  its surroundings; lost variables (C67) are left behind; in a constructor there can be two edits for one place.
* C74: `$b = $a = new Foo` gives `$b` no type. A class that a variable has as an array already is not added by `instanceof`.
  After a branch, the types of the first side are kept if they were known at once (`new Foo`) but not those of calls.
* C75: the types of an open document do not follow changes of other files: they are kept from the first request on until
  the document itself is edited.
* C76: there is one timer for all documents of a folder: if two documents are opened or changed within two seconds, the
  deprecations of the first one are not shown. A check that takes long can replace the diagnostics of a newer version by
  those of an older one. Documents are not checked again when the index changes.
* C77: `C::BAR` is marked as deprecated if `C::BAR_OLD` is, since class constants are looked up by prefix; constants from
  parents and interfaces are not looked at. Traits are never marked, nor is `new` of a class with a deprecated constructor.
  Of `$a->old(); $b->old();` the second may not be marked, because both use the same query (see C30).
* C78: a name that was resolved already is resolved once more, so with `use Lib\Foo; use Foo\Bar;` the class `Bar` leads to
  `\Lib\Foo\Bar`. The interface in `I::X` leads nowhere, nor does `implements i` if the interface is called `I`.
* C82: `self[]` in a doc comment becomes a class `self` of the namespace.
* C83: the bases of an interface are recorded as they are written: not resolved by imports or namespace, and dropped if they
  begin with a backslash. (Traits used by traits are not recorded at all, `trait.go`.)
* C84: in `use P\{function f, C}` the function is imported as a class. The place of an import with an alias in a group is that
  of `as D` only.
* C85: a constant with the name of a native type, such as `binary`, is recorded without its namespace.
* C86: declared return types are ignored. `?Foo` is recorded as a class `?Foo` of the namespace, `self` as a class `self`.
* C87: a doc comment on the line of its declaration is not applied to it, but to a declaration on the next line.
* C88: `implements i` shows nothing on hovering although `interface I` exists: names of interfaces are compared with case.
* C89: signature help resolves every function call with the namespace and imports at the end of the document, so in a file with two namespaces it describes nothing or another function.
* C89: in a trait, `$this->help(` is not described, although hovering over the call shows the method.
* C89: for an object whose type is `P|Q` where `Q` extends `P`, an inherited method is described twice.
* C91: completion in an expression runs five searches and keeps the completeness of the last one: with more than 1000 matching classes and no matching function, the list leaves classes, interfaces and constants out and says it is complete, so the editor never asks again. All five searches also share one counter, so after 1000 classes one interface, one constant and one function are offered each.
* C94: a proposal for a static property always inserts the name without the dollar sign, so after `A::` it inserts `A::s` for `A::$s`.
* C95: member completion asks for classes and interfaces only; `$this->` inside of a trait offers nothing.
* C98: the word before the cursor is cut at every letter beyond U+00FF, because Go's regular expressions match code points and the pattern allows `\x80-\xff` only.
* C100: find references on the name of a declaration reads the namespace at the position of a token passed by value, for which `NodeRange` answers the beginning of the file; in a file with several namespaces, the wrong class is looked for. Traits never list their declaration. With the cursor directly before the name, the token before it is taken.
* C101: the text of a property declaration is taken with its default value, so that find references on `public $q = 1` finds nothing. Members are looked up by name alone, whatever their class.
* C102: a call in a namespace is recorded under both names it may have and listed twice when both are looked for.
* C106: two calls for one file are not kept apart. `changeDocument` takes no lock, `DeleteDocument` neither, and background workers lock the document object, not the file. When two overlap, both look up the symbols to remove before either writes; what only the first one declares is then in the index for ever: it is in no list, so that neither another indexing nor the deletion of the file removes it.
* C108: for a word typed in another case, the item of a namespace inserts its whole name with a leading `\` behind the `\` that is there already (`\app` becomes `\\App\Http`).
* C109: a worker that has read a file before the editor opened it puts its own document into the map, in place of the open one, and removes it afterwards because it is not open. The editor's next change is applied to the file's text, and what was typed before is lost.
* C110: a worker that holds the document object from before a change (`CloneForMutate` makes a new one) writes its symbols to the index after those of the new text.
* C112: requests call `Load` without the document's lock, and `Load` unsets `hasChanges` before the analysis. A worker that takes up the document in the meantime records an incomplete set of symbols with the hash of the whole text; a later pass finds the hash unchanged.
* C113: a `+` in a path is read as a space, because the path of the URI is decoded a second time as a query; a `%` makes the reading fail or reach another file; a `:` anywhere turns the path into a Windows path.
* C114: files whose path has a space and one of `$&+,:;=@` are indexed under another URI than the editor's, and appear twice once they are opened. With a drive the colon is not escaped, so no file is found to be in the folder as VS Code names it.
* C115: the worker decodes the URI of a reported file as if it were a query: names with parentheses, brackets, `!`, `'`, `*` and others are indexed a second time under another URI; names with `%` are skipped without `Done`, so the group of jobs is never finished.
* C116: a folder with the URI `file://` makes the server panic.
* C117: `&`, `...`, `abstract`, `final` and declared return types are not shown when hovering.
* C118: descriptions of parameters (`@param … text`) are shown nowhere, since they are not stored.
* C119: hovering over a constant shows its value twice; an interface is shown without those bases that are fully qualified.
* C122: a doc comment between the parentheses of a call counts as an argument, so all names after it are shown one place too early.
* C123: after `extends` of a class interfaces are offered, too: the handler chooses the list of classes, but the name there is recorded as a ClassAccess, for which the second switch replaces it by the list of types.
* C124: at the name of a call that already has its parentheses and at a name in a `use` declaration nothing is offered; useCompletion is never called.
* C129: files that were bundled with an earlier release and are not any more are never removed from an index that is kept (`C129_needs_bundled`): only URIs that start with `file://` are candidates for removal.
* C132: with classes that extend each other, go to definition on a property and completion after `::` never end (`C132_needs_nocycle`, `C132_needs_nocycle_scope`): the server hangs.
* C119: a `define` whose literal is a single quotation mark makes the analysis panic, if the lexer delivers it as a literal (`C119_needs_closed_quotes`).
* C134: opening a folder that does not exist ends the server: the function given to `WalkDir` calls a method of the nil entry.
* C135: two `global $x` statements with `@global` tags in one file have the same key, so the types of the first are lost. The description of a `@global` tag is never read.
* C136: `ResolveToQualified` does not look whether the short name is an alias already when the class is in the namespace of the file, so the accepted name can lead to another class.
* C136: completing a function of the namespace of the file inserts its short name, which leads to a global function of that name if there is one (C27).
* C137: an interface is shown as a class where a type is completed, a trait is always shown as a class and has no documentation; class constants have no detail.
* C142: keywords are recognised in lower case only, `SELF::X` looks for a class `SELF` of the namespace; `self` as the type of a parameter, and behind `new` if the parser gives a name, is a class `self` of the namespace (C142_needs_lower_case, C142_needs_no_self).
* C144: the constructor's assignments go to the class that began last in the file, also if it has ended: behind an anonymous class in the constructor, `$this->b = …` changes the types of `$b` of the anonymous class (C144_needs_no_class_inside). Properties declared below the constructor get no types from it (C144_needs_above).
* C145: the names that an interface extends and the return types of functions and methods are no symbols: hover, go to definition and find references do not see them (C145_false_return).
* C145: class constants (`A::K`) in the default values of parameters and in the values of `const` declarations are no symbols: hover, go to definition and find references do not see them (C145_false_default).
* C147: `removeView` closes the store it finds by prefix (workspaceStore.go 145-153) but unregisters the watcher of the URI it was given. With `/w` and `/w/b` open, removing `/w/b` closes the index of `/w` and takes back the watcher of `/w/b`; removing something inside a folder that is not a folder closes the folder and takes back a watcher that was never registered.
* C150: the types of `$b->m()` are lost if `$a->m()` was asked before in the same request, `B` extends `A`, and both name the same interface (`C150_false_second_question`; same cause as C30).
* C149: in a file with two namespaces, the types of a call of a function in the first one are looked up with the imports of the last one (`C149_needs_last_table`; same cause as `C89_false_namespace`).
* C152: go to definition on the second `m` of `$a->m()->m()` leads nowhere if the classes implement an interface: definition.go uses one query for the types of `$a->m()` and for the lookup, and the query remembers the interface as searched (`C152_false_chain_with_interfaces`). A new query finds the method.
* C153: in the situation of C152, hovering over the second `m` of `$a->m()->m()` shows nothing (`C153_false_chain_with_interfaces`).
* C154: in the situation of C152, no signature is shown inside the second parentheses of `$a->m()->m()` (`C154_false_chain_with_interfaces`).
* C155: if a method overrides one whose name is written in different case, go to definition leads to both (`C155_false_case`).
* C46: with the cursor at the end of an argument, in front of the comma, the next parameter is highlighted.
* C47: member completions are not ordered by score: the sort compares scores that are not moved with the items.
* C64: outside of all classes the class that follows is returned; after an anonymous class the enclosing class is lost.
* C65: inside the arguments of `new class(f(|))` the wrong call is described.
