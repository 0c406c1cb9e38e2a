{"id": "C01", "title": "queue is a double-ended list", "statement": "Any history of New/Append/Prepend/First/Last/Peek/Items/Len/IsEmpty/Fill/Clear on queue.Queue returns exactly what the same history returns on a plain list (append at the back, prepend at the front, take first/last, negative Peek index counts from the back, out-of-range Peek and First/Last of an empty queue report false), and never panics.", "quantifier": "all element types, all finite operation histories (initial slices shorter than 2^32), hence all wrap-around, growth and shrink states of the ring buffer", "why_tests_cant": "the ring buffer has unboundedly many head/tail/capacity configurations; tests touch a handful of growth and wrap points", "anchors": ["internal/queue/queue.go: Queue.Append, Prepend, First, Last, Peek, Items, Len, IsEmpty, Fill, Clear, grow, computeSize"]}
{"id": "C02", "title": "integer set operations are the set operations", "statement": "For every integer x: after Add x is contained iff it was or is listed; after Remove iff it was and is not listed; Union/Intersect/Subtract/Copy (functions and in-place methods) contain exactly the union/intersection/difference/same elements; no operation panics.", "quantifier": "all finite sets of (unbounded) integers including negative ones, all operation histories", "why_tests_cant": "the set is a bit array whose allocated window depends on the whole history; window/offset bugs show only for particular combinations of ranges", "anchors": ["internal/ints/intset.go: Set.Add, Remove, Contains, Copy, Union, Intersect, Subtract, allocate"]}
{"id": "C03", "title": "integer set observers depend only on the elements", "statement": "ToSlice returns precisely the contained integers in strictly increasing order, IsEmpty is true iff nothing is contained, and IsEqual is true iff both sets contain the same integers, whatever operations (and so whatever allocated windows) produced the sets.", "quantifier": "all pairs of sets reachable by any operation histories", "why_tests_cant": "equal sets with different internal windows are produced by unboundedly many histories", "anchors": ["internal/ints/intset.go: Set.ToSlice, IsEmpty, IsEqual, countBits"]}
{"id": "C04", "title": "LineCol is the line and rune column", "statement": "Source.LineCol(p) returns line = 1 + number of '\\n' bytes before the clamped position and col = 1 + number of runes between the start of that line and the clamped position, where negative p is clamped to 0 and p beyond the content to the content length.", "quantifier": "all byte contents (valid UTF-8 or not), all integer positions", "why_tests_cant": "binary search over an arbitrary line table; off-by-one errors depend on content and position", "anchors": ["source/source.go: New, Source.LineCol, findLineIndex"]}
{"id": "C05", "title": "LineCol does not depend on earlier queries", "statement": "The result of LineCol for a position is the same whatever sequence of LineCol calls was made on the same Source before, although the source caches the previously found line.", "quantifier": "all contents, all finite histories of queries, all positions", "why_tests_cant": "the cache makes the answer path depend on the query history, an unbounded space of sequences", "anchors": ["source/source.go: Source.LineCol, findLineIndex, Source.prevLineIndex"]}
{"id": "C06", "title": "Pos finds the requested line and column", "statement": "Source.Pos(line, col) returns 0 for line or col below 1, the content length for a line beyond the last one, and otherwise the offset reached from the start of that line by skipping min(col-1, number of runes in the line) runes, never passing the line's '\\n' or the end of content.", "quantifier": "all byte contents, all integer lines and columns", "why_tests_cant": "depends on arbitrary content, including multi-byte and invalid encodings", "anchors": ["source/source.go: Source.Pos"]}
{"id": "C07", "title": "LineCol and Pos are mutually inverse", "statement": "Pos(LineCol(p)) = p for every p that is a rune start (or the end of content), and LineCol(Pos(l, c)) = (l, c) for every existing line l and every column from 1 to one past the last rune of that line.", "quantifier": "all byte contents, all rune-boundary positions, all existing line/column pairs", "why_tests_cant": "a round trip over all contents and positions", "anchors": ["source/source.go: Source.LineCol, Source.Pos"]}
{"id": "C08", "title": "newline normalisation", "statement": "NormalizeNls replaces every \"\\r\\n\" and every remaining \"\\r\" with a single \"\\n\" and keeps every other byte in order: the result equals the left-to-right textual replacement, contains no \"\\r\", and normalising twice changes nothing.", "quantifier": "all byte contents", "why_tests_cant": "in-place compaction with two cursors; correctness must hold for every arrangement of CR and LF", "anchors": ["source/source.go: NormalizeNls"]}
{"id": "C09", "title": "source queue is a list of positioned sources", "statement": "Under any history of Append/Prepend/NextSource/Skip/Rewind/Seek the queue behaves as the list of (source, saved position) pairs with the documented rules: nil is ignored, an empty source is not added to a non-empty queue (an empty current source is replaced), Prepend saves the current position, NextSource drops the current source and restores the saved position of the next one.", "quantifier": "all histories of queue operations over all sources (empty, non-empty, repeated)", "why_tests_cant": "unbounded histories interleaving position changes and queue changes", "anchors": ["source/source.go: Queue.Append, Prepend, NextSource, Skip, Rewind, Seek, Source, Pos, IsEmpty, Eof, ContentPos"]}
{"id": "C10", "title": "source position always stays inside the source", "statement": "After any history of operations 0 <= Pos() <= length of the current source, Pos() is 0 when the queue is empty, and Eof() is true exactly when the queue is empty or the position equals the source length.", "quantifier": "all histories including arbitrary integer arguments of Skip/Rewind/Seek and Snapshot/Restore", "why_tests_cant": "safety invariant over all histories; the lexer slices the content with this position", "anchors": ["source/source.go: Queue.Skip, Rewind, Seek, Restore, Eof"]}
{"id": "C11", "title": "snapshot and restore", "statement": "Restore(s) brings the source queue back to exactly the state observable at the moment s was taken (current source, position, all following sources and their positions), whatever happened in between, and the same snapshot can be restored again later with the same effect.", "quantifier": "all queue states, all intermediate histories, any number of restores", "why_tests_cant": "relates two states separated by an arbitrary history", "anchors": ["source/source.go: Queue.Snapshot, Queue.Restore"]}
{"id": "C12", "title": "lexer calls terminate", "statement": "Lexer.Next and Lexer.NextOf return after finitely many steps for every regular expression, type table, source queue and requested type set.", "quantifier": "all matchers, type tables, queues, type sets", "why_tests_cant": "termination for every input cannot be observed by running tests", "anchors": ["lexer/lexer.go: Lexer.Next, NextOf, fetch, matchToken"]}
{"id": "C13", "title": "a fetched token is a faithful piece of the source", "statement": "A token returned by Next/NextOf that is not EoF/EoI has the current source as its source, content equal to the source bytes starting at its position, lies entirely between the old and the new queue position (new position > old), has one of the requested types, a type name from the type table, and never the error type; an error group yields a BadTokenError instead.", "quantifier": "all matchers obeying the regexp contract, type tables, queues, requested type sets", "why_tests_cant": "must hold for every regular expression and content", "anchors": ["lexer/lexer.go: matchToken, fetch, Next, NextOf, New"]}
{"id": "C14", "title": "successive tokens tile the source in order", "statement": "Repeatedly calling Next until EoF yields tokens at non-decreasing, non-overlapping positions of the current source; every byte of the consumed prefix belongs to exactly one regexp match and the queue position is the end of the last match.", "quantifier": "all matchers, contents and numbers of calls", "why_tests_cant": "history property over unbounded token streams", "anchors": ["lexer/lexer.go: Lexer.Next, fetch; source/source.go: Queue.Skip"]}
{"id": "C15", "title": "a failed fetch makes no changes", "statement": "When Next/NextOf reports a lexical error, or NextOf returns nil, nil because no token of a requested type is available, the source queue is left unchanged.", "quantifier": "all matchers, queues, type sets", "why_tests_cant": "must hold for every lexer and position; depends on whether insignificant lexemes precede the failure", "anchors": ["lexer/lexer.go: Lexer.Next, NextOf (documentation), fetch"]}
{"id": "C16", "title": "end of file and end of input protocol", "statement": "At the end of the current source Next returns one EoF token naming that source and its length and moves to the next source; when no source is left it returns EoI, again and again, without changing the queue.  So a queue of n sources yields exactly n EoF tokens followed only by EoI.", "quantifier": "all queues, all numbers of calls", "why_tests_cant": "liveness/ordering over arbitrary queues", "anchors": ["lexer/lexer.go: fetch; lexer/token.go: EofToken, EoiToken"]}
{"id": "C17", "title": "tree edits are list edits", "statement": "In a well-formed tree AppendChild, AppendSibling, PrependSibling and Detach (of elements not containing the target) change the children lists exactly as appending / inserting after / inserting before / removing would, and leave parent, previous, next, first-child and last-child links of all elements mutually consistent.", "quantifier": "all well-formed trees, all elements, all edit histories", "why_tests_cant": "pointer surgery must keep five kinds of links consistent in every configuration of neighbours", "anchors": ["tree/tree.go: AppendChild, AppendSibling, PrependSibling, Detach, nodeElement.AddChild, nodeElement.RemoveChild"]}
{"id": "C18", "title": "Replace puts the new element in the place of the old one", "statement": "After Replace(old, new) the new element occupies the position old had among its siblings and old is detached, for every pair of non-root elements.", "quantifier": "all well-formed trees and all pairs (old, new), including new being a neighbour of old", "why_tests_cant": "depends on the relative position of both elements", "anchors": ["tree/tree.go: Replace"]}
{"id": "C19", "title": "walker visits the subtree in depth-first order honouring the flags", "statement": "Walking a subtree visits exactly the elements of the parent-first depth-first order (left-to-right or right-to-left), each with its depth below the root; SkipChildren omits the children of the last element, SkipSiblings omits its remaining siblings, Stop ends the walk; the walk terminates and once it has returned nil it keeps returning nil.", "quantifier": "all finite trees, both modes, all visitor behaviours (any flag sequence)", "why_tests_cant": "the walker is an iterative machine with a flag stack; all trees and all flag sequences matter", "anchors": ["tree/tree.go: Walker.Step, Walker.Walk, pushFlags, popFlags"]}
{"id": "C20", "title": "first and last token element", "statement": "FirstTokenElement/LastTokenElement return the leftmost/rightmost token element of the subtree in document order, or nil iff the subtree has no token elements.", "quantifier": "all finite trees including nodes without tokens at any place", "why_tests_cant": "must hold for every tree shape", "anchors": ["tree/tree.go: FirstTokenElement, LastTokenElement"]}
{"id": "C21", "title": "next and previous token element", "statement": "NextTokenElement(n)/PrevTokenElement(n) return the first token element after / the last one before the whole subtree of n in document order, and nil iff there is none.", "quantifier": "all finite trees, all elements", "why_tests_cant": "must hold for every tree shape, e.g. neighbours without tokens", "anchors": ["tree/tree.go: NextTokenElement, PrevTokenElement"]}
{"id": "C22", "title": "selectors compose", "statement": "Selector.Apply returns, for the non-nil inputs in order, the concatenated results of running the transformers one after another; Filter keeps accepted elements, DeepSearch returns the accepted elements of the subtree in document order, Search the same but without descending into accepted ones; Unique keeps exactly the first occurrence of every element.", "quantifier": "all transformer lists, filters, trees and input lists", "why_tests_cant": "algebraic law over all pipelines", "anchors": ["tree/tree.go: Selector.Apply, selectNodes, search, Filter, Unique, Extract, IsNot, IsAny, IsAll, Any, All, Nth"]}
{"id": "C23", "title": "structural extractors", "statement": "Children returns the children left to right, Ancestors the chain of parents closest first, PrevSiblings/NextSiblings the preceding/following siblings closest first; each terminates.", "quantifier": "all well-formed trees, all elements", "why_tests_cant": "must hold for every tree", "anchors": ["tree/tree.go: Children, Ancestors, PrevSiblings, NextSiblings"]}
{"id": "C24", "title": "first sets of nodes", "statement": "For a grammar accepted by langdef.Parse the computed first-token set of every node is exactly the set of tokens that can start the node according to its definition, and it is never empty; definitions are rejected as unresolvable exactly when some node cannot start with any token.", "quantifier": "all sets of node definitions, including mutually recursive ones, all orders of definition", "why_tests_cant": "least fixpoint over arbitrary dependency graphs", "anchors": ["langdef/parser.go: resolveDependencies; langdef/chunks.go: FirstTokens, IsOptional"]}
{"id": "C25", "title": "unused and undefined nodes are reported exactly", "statement": "langdef.Parse reports undefined nodes iff some referenced node is never defined, and reports unused nodes iff some node is not reachable from the root node through node references; the reported names are exactly those nodes.", "quantifier": "all node reference graphs", "why_tests_cant": "graph reachability over arbitrary graphs", "anchors": ["langdef/parser.go: findUndefinedNodes, findUnusedNodes"]}
{"id": "C26", "title": "left recursion is rejected exactly", "statement": "langdef.Parse reports left recursion iff some node can, without consuming any token, lead to an infinite chain of nested node openings; the check itself always terminates.", "quantifier": "all node definitions", "why_tests_cant": "cycle detection over arbitrary graphs", "anchors": ["langdef/parser.go: findRecursions, ntIsRecursive"]}
{"id": "C27", "title": "compiled rule tables mean what the state entries say", "statement": "For every state, looking a key up in the compiled sorted tables (binary search in Rules and MultiRules) gives exactly the rules recorded for that key in that state, in order.", "quantifier": "all state entries and keys", "why_tests_cant": "sorted-table construction and binary search over arbitrary rule sets", "anchors": ["langdef/result.go: BuildGrammarState, rmKeys, writeGrammarState; parser/parser.go: findRules"]}
{"id": "C28", "title": "dropping unused states keeps the machine", "statement": "Removing unused states from the compiled grammar only renumbers states: every remaining state has the same transitions as before under the renumbering.", "quantifier": "all state machines produced by grammar compilation", "why_tests_cant": "in-place renumbering with shared rule slices over arbitrary machines", "anchors": ["langdef/result.go: dropUnusedStates, CopyRules"]}
{"id": "C29", "title": "compiled node machines accept the described language", "statement": "The state machine compiled for a node definition accepts exactly the sequences described by its EBNF expression: sequence, variants, optional (0 or 1) and repeated (0 or more) groups.", "quantifier": "all EBNF expressions, all token sequences", "why_tests_cant": "language equivalence over all expressions and inputs", "anchors": ["langdef/chunks.go: BuildStates; langdef/docs.go"]}
{"id": "C30", "title": "parsing terminates", "statement": "For every grammar accepted by langdef.Parse and every finite input (with hooks that return and emit finitely many tokens), Parser.Parse returns.", "quantifier": "all accepted grammars, all inputs", "why_tests_cant": "non-termination cannot be established or excluded by finite runs", "anchors": ["parser/parser.go: ParseContext.parse, applyRule; langdef/chunks.go: groupChunk.BuildStates, BypassRule"]}
{"id": "C31", "title": "lookahead follows every variant", "statement": "When several rules match a token, every possible variant is traced until at most one survives: an alternative that is viable on the following tokens is never discarded because of the order or number of other alternatives.", "quantifier": "all grammars, states and token sequences causing conflicts", "why_tests_cant": "depends on the numbers of simultaneously live branches, unbounded", "anchors": ["parser/parser.go: resolveConflict; README.md"]}
{"id": "C32", "title": "lookahead neither loses, repeats nor reorders tokens", "statement": "The sequence of tokens consumed by the parser is exactly the sequence delivered by the token pipeline, in order, each once, no matter how many conflicts were resolved by lookahead (replayed tokens included).", "quantifier": "all grammars, inputs and conflict patterns", "why_tests_cant": "replay queue correctness over arbitrary nesting of conflicts", "anchors": ["parser/parser.go: nextRule, resolveConflict, nextToken, parse"]}
{"id": "C33", "title": "node hook notifications are well nested and complete", "statement": "For every successful parse the notifications received by node hooks form a well-nested sequence (each opened node is ended exactly once, children inside their parent, result of EndNode handed to the parent's HandleNode), and the tokens handed to the hooks, in order, are exactly the consumed tokens; with WithSides the side tokens are included in their original order. Side tokens never end a nested node and never begin a nested node entered with an ordinary token: they are handed to an outer node.", "quantifier": "all grammars, inputs, hook layers", "why_tests_cant": "trace property over all parses", "anchors": ["parser/parser.go: pushNode, popNode, handleNodeToken, handleNodeSides, applyRule"]}
{"id": "C34", "title": "the tree built by NodeHook spells the input", "statement": "Parsing with tree.NodeHook as AnyNode hook yields a well-formed tree whose token leaves, left to right, are exactly the tokens consumed by the parser.", "quantifier": "all grammars, inputs", "why_tests_cant": "end-to-end property over all inputs", "anchors": ["tree/tree.go: NodeHook, HookInstance; parser/parser.go: popNode"]}
{"id": "C35", "title": "WithFullSource leaves nothing behind", "statement": "If Parse with WithFullSource succeeds then every non-side token delivered by the token pipeline (lexer and token hooks) up to end of input was consumed by the grammar.", "quantifier": "all grammars, inputs, hooks emitting external tokens", "why_tests_cant": "depends on what is pending in four different queues when the root node ends", "anchors": ["parser/parser.go: parse (lines 523-549)"]}
{"id": "C36", "title": "token hook layers form a pipeline", "statement": "A token passes through the hook layers from the lexer-side layer to the user layer; each layer sees exactly the stream emitted by the previous layer; a hook's extra tokens follow the kept token in order or replace the dropped one; EoF and EoI can never be dropped by a hook (extra tokens precede them).", "quantifier": "all layer stacks, all hook behaviours, all token streams", "why_tests_cant": "history property with per-layer queues", "anchors": ["parser/parser.go: pullToken, handleToken"]}
{"id": "C37", "title": "peeking has no effect on parsing", "statement": "PeekToken calls made by a token hook return successive upcoming tokens (pending tokens of upper layers first, then source tokens) and leave no trace: after the hook returns, sources and pending queues are as if PeekToken was never called.", "quantifier": "all hook behaviours (any number of peeks), all parser states", "why_tests_cant": "must hold for every number of peeks and every pending-queue state", "anchors": ["parser/hooks.go: TokenContext.PeekToken, restore"]}
{"id": "C38", "title": "hook errors stop parsing", "statement": "If a token hook returns an error, Parse stops and returns that error.", "quantifier": "all grammars, inputs and hooks, including hooks invoked during lookahead", "why_tests_cant": "depends on whether the token is fetched during conflict resolution", "anchors": ["parser/parser.go: resolveConflict, nextToken, pullToken"]}
{"id": "C39", "title": "rule key priority", "statement": "A token is matched first as the literal with its text (upper-cased for caseless types, unless the type is excluded from literals), then as its token type unless that literal is reserved, and last as a fallback rule; a reserved word never matches as its token type.", "quantifier": "all tokens, flag combinations and states", "why_tests_cant": "combination of flags, literals and tables", "anchors": ["parser/parser.go: possibleRuleKeys, findRules"]}
{"id": "C40", "title": "expected token types never hide an acceptable token", "statement": "For every state of a compiled grammar, the set of token types passed to the lexer includes every type under which a token acceptable in that state can be fetched, and all side types.", "quantifier": "all grammars and states", "why_tests_cant": "relates literal/type resolution with state tables for all grammars", "anchors": ["langdef/parser.go: assignTokenGroups, assignStateTokenTypes"]}
{"id": "C41", "title": "explicit end of input is matched", "statement": "A grammar that requires end of input ($) at some point accepts the end of input there.", "quantifier": "all grammars using $", "why_tests_cant": "depends on the set of token types expected in the state", "anchors": ["parser/parser.go: fetchToken, nextToken; lexer/lexer.go: NextOf; langdef/chunks.go: eoiChunk"]}
{"id": "C42", "title": "convert layer replaces exactly the listed texts", "statement": "The convert layer replaces a token of the input type whose text is listed by one token with the listed text (output type or same type, position kept iff save-position) and passes every other token unchanged; duplicate or odd argument lists are rejected.", "quantifier": "all configurations and tokens", "why_tests_cant": "must hold for all configurations", "anchors": ["parser/layers/convert/convert.go: template.Setup"]}
{"id": "C43", "title": "restrict layer forbids exactly the wrong contexts", "statement": "A restricted node is rejected iff the closest ancestor listed in allow-in/forbid-in is a forbidding one; a configuration naming an unknown node is reported.", "quantifier": "all configurations and node stacks", "why_tests_cant": "must hold for all stacks", "anchors": ["parser/layers/restrict/restrict.go: template.Setup; parser/parser.go: newParseContext line 271"]}
{"id": "C44", "title": "indent layer emits balanced tokens", "statement": "Over any input for which the layer reports no error, on-indent and on-dedent tokens are properly nested and every on-indent is matched by exactly one on-dedent by the end of input; every original token is passed on exactly once and in order.", "quantifier": "all token streams ending with one end-of-input token", "why_tests_cant": "stateful machine over arbitrary token streams", "anchors": ["parser/layers/indent/indent.go: handle, handleSpace, handleCommon, handleSide, handleEoi, indent, dedent, pad"]}
{"id": "C45", "title": "string escapes in grammar descriptions", "statement": "A double-quoted string in a grammar description denotes its text with \\\\, \\\", \\n, \\r, \\t replaced, \\x## replaced by that byte and \\u####, \\U######## replaced by the UTF-8 encoding of that rune; any other escape is rejected; decoding always terminates and never panics.", "quantifier": "all string token contents", "why_tests_cant": "decoder over arbitrary byte strings", "anchors": ["langdef/parser.go: processStringToken; langdef/docs.go"]}
{"id": "C46", "title": "reading a grammar description terminates", "statement": "langdef.Parse returns (a grammar or an error) for every description text, including truncated ones.", "quantifier": "all description texts", "why_tests_cant": "non-termination on some truncated inputs cannot be excluded by sampling", "anchors": ["langdef/parser.go: fetch, fetchAll, parseDir, fetchRegexp, parseGroup"]}
{"id": "C47", "title": "generated Go source is well formed", "statement": "The Go file written by llxgen has balanced and properly nested braces for every grammar.", "quantifier": "all grammars, including those with layers", "why_tests_cant": "template output over arbitrary grammars", "anchors": ["cmd/llxgen/llxgen.go: makeGo"]}
{"id": "C48", "title": "errors carry position exactly when known", "statement": "NewError/FormatErrorPos append \" in <name> at line <l> col <c>\" to the message iff name, line and column are all known, and always record code, name, line and column unchanged.", "quantifier": "all codes, messages, names and positions", "why_tests_cant": "algebraic law over all arguments", "anchors": ["llx.go: NewError, FormatError, FormatErrorPos"]}
{"id": "C49", "title": "layer registry", "statement": "RegisterHookLayer registers a template under a name exactly once: the first registration wins, any later one with that name fails and changes nothing; parser construction uses an explicitly passed template if there is one for that name, otherwise the registered one, otherwise fails.", "quantifier": "all registration histories", "why_tests_cant": "history property over a global registry", "anchors": ["parser/hooks.go: RegisterHookLayer; parser/parser.go: New"]}
{"id": "C51", "title": "accepted input is described by the grammar", "statement": "If Parse succeeds, the consumed tokens are the leaves of a tree described by the grammar description: the content of every node (nested nodes as symbols) is a word of the EBNF expression of the node, and every token is of the type, or is the literal, that the expression names; side tokens may be anywhere.", "quantifier": "all grammar descriptions, inputs, token pipelines and hooks", "why_tests_cant": "relates the language of arbitrary grammars to all accepted inputs; the compiler, table builder and parser must agree", "anchors": ["parser/parser.go: parse, findRules, applyRule; langdef/chunks.go; langdef/result.go"]}
{"id": "C50", "title": "syntax errors name an acceptable token", "statement": "Reporting an unexpected token never panics, and the token named as expected is one that is acceptable in the state where the error occurred.", "quantifier": "all grammars, all states where an error can be reported", "why_tests_cant": "depends on which keys of which state have one or several rules; tests check a few messages", "anchors": ["parser/parser.go: getExpectedToken (lines 554-576), parse (lines 495-509)"]}
{"id": "C53", "title": "grammar descriptions: documented syntax and meaning of definitions", "statement": "A grammar description is accepted only if its tokens follow the self-definition of the language in langdef/docs.go; this syntax is unambiguous, and the nodes and layers of the result are exactly those denoted by the description: nodes are numbered in the order of the first mention, the structure of a node is the denotation of its expression (names, token types, literals, variants, groups, optional and repeated groups), and layers are in the order of the text.", "quantifier": "all token sequences of descriptions", "why_tests_cant": "recursive grammar with unbounded nesting; tests compare a few descriptions with expected tables", "anchors": ["langdef/docs.go: self-definition; langdef/parser.go: Parse, parseDir, parseLayerDef, parseNodeDef, parseGroup, parseVariants, parseVariant"]}
{"id": "C54", "title": "grammar descriptions: token table", "statement": "The token table of an accepted description holds first the defined types in the order of definition with their regular expressions (templates replaced), then external types in the order of the first mention, then literals in the order of the first mention; flags are exactly those of the directives listing the type or literal, regardless of the order of directives and definitions, and the group is the number of the !group directive listing the type.", "quantifier": "all token sequences of descriptions, any order of directives and definitions", "why_tests_cant": "directives may precede or follow definitions in any combination; three index maps must agree", "anchors": ["langdef/parser.go: addToken, addExtraToken, addTokenFlag, addLiteralToken, useLiteralToken, Parse lines 243-271"]}
{"id": "C55", "title": "grammar descriptions: documented restrictions", "statement": "An accepted description satisfies the documented restrictions: templates are defined before use; templates, types and nodes are defined at most once; every mentioned type is defined or external; side and error types are not used in nodes; if !literal lists literals then only listed literals are used; each type is separated by !group at most once; the number of types is below the limit. A description satisfying them is not rejected.", "quantifier": "all token sequences of descriptions", "why_tests_cant": "each restriction quantifies over all pairs of positions in the text", "anchors": ["langdef/docs.go; langdef/parser.go: Parse, parseGroupDir, parseVariant"]}
{"id": "C56", "title": "descriptions: the grammar means what the text says", "statement": "For every description accepted by langdef.Parse the tokens, node names and layers of the grammar are those of the text; every mentioned node is defined; the machine of every node accepts exactly the words that the EBNF expression of the node in the text describes (over names of nodes, token types and literals); expected token types are exactly those that can provide the tokens; and any input successfully parsed with the grammar is described by the text.", "quantifier": "all token sequences of descriptions, all map iteration orders, all inputs, token pipelines and hooks", "why_tests_cant": "composition of reading, dependency resolution, state building, pruning and table building for unbounded descriptions and inputs", "anchors": ["langdef/parser.go: Parse lines 54-72, parseContext.Parse", "langdef/result.go: BuildGrammar", "langdef/docs.go", "parser/parser.go: parse"]}
{"id": "C57", "title": "grammar compilation: total and with exact verdicts", "statement": "langdef.Parse returns for every correct description, without a panic, and its verdict is exact: a token type error names a literal that no type can provide; otherwise undefined nodes are exactly those without definitions; otherwise unused nodes are exactly those not reachable from the root; otherwise unresolved nodes are exactly those that cannot start with a token; otherwise reported recursion is left recursion (all of it if $ is not used); otherwise the grammar is compiled.", "quantifier": "all correct descriptions, all map iteration orders", "why_tests_cant": "termination and absence of index panics of dependency resolution, state building, pruning, and table building for unbounded structures and map orders", "anchors": ["langdef/parser.go: Parse lines 54-72", "langdef/internal: assignTokenTypes, resolveDependencies, findRecursions, buildStates, assignStates"]}
{"id": "C58", "title": "generated Go source declares the same grammar", "statement": "Whenever llxgen writes a Go file, the file is UTF-8 text of a Go source file in the chosen package that declares the chosen variable as a pointer to a grammar.Grammar literal with exactly the tokens, layers, nodes, states, multi rules and rules of the grammar; different grammars give different files; llxgen never panics on grammars made from descriptions.", "quantifier": "all grammars including arbitrary bytes in token names and regular expressions, all package and variable names", "why_tests_cant": "quoting of arbitrary (also invalid UTF-8) byte strings, automatic semicolons and comments inside the literal, arbitrary table contents", "anchors": ["cmd/llxgen/llxgen.go: makeGo 90-206", "cmd/llxgen/llxgen.go: findMultiRuleState, findRuleState 208-232"]}
{"id": "C52", "title": "Error tokens are lexical errors", "statement": "A lexer returns an error containing the token text when it matches a token of a type listed in !error; no parse consumes such a token.", "quantifier": "all grammars, texts, sets of expected types", "why_tests_cant": "tests use a few texts; the claim is about every place of every text where an error token may be matched, and about every way a token may be consumed", "anchors": ["langdef/docs.go: !error (lines 155-156)", "grammar/grammar.go: ErrorToken (lines 73-75)", "parser/parser.go: New (lines 77-94), fetchToken (lines 809-830)"]}
{"id": "C59", "title": "Lexers of a parser take the first defined type of the first suitable group", "statement": "For a parser made by New, a token fetched at a place of a text is that of the first group whose first matching type (in order of definition) is expected; its text is what the expression of this type matches. If there is no such group then nothing is fetched and sources do not move; when all types are expected this is an error for this place. New never panics on grammars made from descriptions and fails only if some expression is wrong.", "quantifier": "all token tables, expressions, texts, places and sets of expected types", "why_tests_cant": "the winner depends on all expressions of all groups and on the set of expected types at every place", "anchors": ["parser/parser.go: New (lines 46-110), fetchToken (lines 809-830)", "lexer/lexer.go: matchToken, NextOf", "langdef/docs.go: lines 108-111, 168-182"]}
{"id": "C60", "title": "hooks are chosen as documented", "statement": "In every layer the hook called for a token is the one for its text if the token type allows matching against literals, else the one for its type, else the one for any type; special tokens get only their own hooks; the hook called for a node is the one under its name, else the one for any node. A set of hooks is rejected exactly when it names an unknown token type or node; nothing panics; hooks of other layers do not matter.", "quantifier": "all token tables, hook sets with any names and texts, tokens, nodes", "why_tests_cant": "slots for types, grammar literals and texts known to hooks only share one array whose size depends on all hooks; tests try a few hooks of one layer", "anchors": ["parser/hooks.go: Hooks (lines 86-102)", "parser/parser.go: newHookLayer (lines 279-334), getNodeHook (lines 651-663), handleToken (lines 753-794)"]}
{"id": "C61", "title": "described inputs are accepted", "statement": "If the tokens of an input are the leaves of a tree described by the grammar, then the parser accepts the input: Parse returns no error.", "quantifier": "all descriptions, inputs, token streams that give a token when its type is requested, hooks that do not fail", "why_tests_cant": "inputs of any length and nesting for any grammar; rejection depends on how rules of nested nodes, skips and expected types of all states fit together", "anchors": ["parser/parser.go: parse (lines 475-552), nextRule, applyRule, findRules (lines 575-649)", "langdef/chunks.go", "langdef/result.go"]}
{"id": "C62", "title": "hooks are told about the described tree", "statement": "If the tokens of an input are the leaves of a tree described by the grammar, then the hooks of the parser are told about that tree: the same nodes in the same places with the same ordinary tokens; every described tree of the input is the same one.", "quantifier": "all descriptions, inputs, token streams that give a token when its type is requested, hooks that do not fail", "why_tests_cant": "the place where a nested node ends is chosen by the next token alone, and the choice must agree with the description for any nesting and any continuation of the input", "anchors": ["parser/parser.go: parse (lines 475-552), nextRule, applyRule, findRules (lines 575-649)", "parser/parser.go: pushNode, popNode", "langdef/chunks.go"]}
{"id": "C63", "title": "accepted inputs are exactly the described ones", "statement": "If one token is enough to choose a rule in every state of a compiled grammar and the parser is told to read the whole input, then an input is accepted if and only if its ordinary tokens are the leaves of a tree described by the grammar; a rejected input has no described tree.", "quantifier": "all descriptions, inputs, token streams that give a token when its type is requested and give it again after it is put back, hooks that do not fail, numbers of steps", "why_tests_cant": "both directions quantify over all inputs and all trees: tests may show that given inputs are accepted or rejected, but not that nothing else is", "anchors": ["parser/parser.go: parse (lines 475-552), nextRule, applyRule, findRules (lines 575-649)", "parser/parser.go: nextToken (lines 665-683)", "langdef/parser.go", "langdef/chunks.go"]}
{"id": "C64", "title": "the tree built is the described tree", "statement": "If the tokens of an input are the leaves of a tree described by the grammar and one token is enough to choose a rule, then Parse with tree.NodeHook returns the root of a well-formed syntax tree with the described nodes and ordinary tokens in their places.", "quantifier": "all descriptions, inputs, token streams that give a token when its type is requested, other hook layers that do not fail, names of nodes", "why_tests_cant": "relates links of all elements of trees of any size and shape to the grammar description; tests compare a few dumped trees", "anchors": ["tree/tree.go: hook instance (lines 836-871)", "parser/parser.go: parse (lines 475-552), pushNode, popNode", "langdef/chunks.go"]}
{"id": "C65", "title": "accepted texts are the described ones", "statement": "If one token is enough to choose a rule, the parser made for a grammar and told to read whole sources accepts a text if and only if the text is cut into tokens to the very end by the token types of the grammar (first matching type, at the current place) and the ordinary tokens are the leaves of a tree described by the grammar. There is at most one way to cut a text, and nothing of it is lost.", "quantifier": "all descriptions with one group of token types, all lists of sources and positions in them, all regular expressions, hooks that do not fail", "why_tests_cant": "both directions for all texts: a test shows that some texts are accepted or rejected, not that no other text is", "anchors": ["lexer/lexer.go: fetch, matchToken, Next, NextOf", "parser/parser.go: New (lines 99-157), parse (lines 475-552), nextToken, fetchToken (lines 632-663)", "langdef/chunks.go"]}
{"id": "C66", "title": "a syntax tree keeps the text", "statement": "When a text is parsed with all tokens passed to node hooks, whole sources checked and a syntax tree built, the tokens of the tree in order are pieces of the text one after another, each one at its place, and nothing of the text is lost or repeated.", "quantifier": "all compiled grammars, any number of groups of token types, all lists of sources and positions in them, all regular expressions", "why_tests_cant": "for all texts and grammars: a lost or repeated piece depends on where nodes end, tokens are put back and sources are switched", "anchors": ["parser/parser.go: WithSides (lines 138-144), nextToken (lines 665-683), fetchToken, parse (lines 475-552)", "tree/tree.go: NodeHook", "lexer/lexer.go"]}
{"id": "C67", "title": "sample files are split as documented", "statement": "The grammar checking tool splits a file into samples: the first line starts with the separator, every line that starts with it ends a sample, a sample is made of the lines between separators without the newline before the separator, names of samples show numbers of their lines; texts that are not UTF-8 are reported.", "quantifier": "all files", "why_tests_cant": "for all files: empty lines, samples without lines, missing final newlines, separators inside of lines", "anchors": ["examples/grammar/grammar.go: makeSources, contentLines, linePrefix, sourceSample (lines 174-245)"]}
{"id": "C68", "title": "trees are printed whole and fit", "statement": "The grammar checking tool prints any tree without a panic; printed items are the label, the brackets and the children of every node in document order (a node that is the only child is joined to the label of its parent); printed lines are not wider than the given width.", "quantifier": "all trees made by edits of separate elements, all line widths, all sequences of printer calls", "why_tests_cant": "for all trees and widths: depth of indents, long tokens and positions of line breaks", "anchors": ["examples/grammar/grammar.go: printTreeNode, printTreeToken, printer (lines 279-374)"]}
{"id": "C69", "title": "node hooks compute a fold of the parse tree", "statement": "When every node gets a hook instance of one layer with its own state, the result of a successful parse is the fold of the parse tree: an instance is made for a node, told about its tokens and about results of nested nodes from left to right, and the value of its EndNode is handed to the instance of the enclosing node (or returned for the root). For a grammar in which one token chooses a rule and hooks that never fail and ignore side tokens the value is the fold of the described tree.", "quantifier": "all hook classes, grammars, token pipelines, other hook layers, inputs", "why_tests_cant": "a statement about all hook classes and all parse trees: instances of nested and recursive nodes must never be mixed up, results must never be lost or handed to a wrong instance", "anchors": ["parser/hooks.go: NodeHookInstance (lines 21-41)", "parser/parser.go: newHookInstances, pushNode, popNode, handleToken"]}
{"id": "C70", "title": "map iteration order never leaks into grammars", "statement": "Whatever order Go iterates the map of nodes in, langdef builds the same grammar (tables, first states, token types) from the same definitions and rejects the same definitions with the same error; hence files made by llxgen do not depend on the run.", "quantifier": "all node definitions, all iteration orders of the three loops over the map", "why_tests_cant": "iteration orders are random at run time; a test sees only some of n! orders for some definitions", "anchors": ["langdef/parser.go: findUndefinedNodes, resolveDependencies (lines 875-1005)", "examples/*/internal/grammar.go"]}
{"id": "C71", "title": "the calculator computes what is written", "statement": "The tokens of any successfully parsed input are a written command: an expression with the usual precedence and associativity, an assignment, or a definition of a function. In any sequence of inputs, results are the values of the written expressions, with the last assigned variables and functions. The grammar, the parser with lookaheads, node hooks and constant folding of the calculator example are all in the model. The tokens have only one reading.", "quantifier": "all token sequences of all inputs, all exact arithmetics, all depths of calls", "why_tests_cant": "constant folding and lookaheads make the built object differ from the written expression in unboundedly many ways; equality must hold for all expressions, names, orders of inputs", "anchors": ["examples/calc/internal/grammar.llx", "examples/calc/internal/grammar.go", "examples/calc/internal/lib.go (lines 34-541)"]}
{"id": "C72", "title": "configuration files are edited as ordered", "statement": "For a parsed file without repeated sections and entries, the editor either performs all commands in order (every entry named by a command has the given value, all other entries, comments and layout are kept, new entries and sections are in the described places) and the saved text is the text of the edited document, or it panics, and then exactly because a command has met one of two described kinds of documents. If nothing is saved, nothing was changed.", "quantifier": "all trees of configuration files, all lists of commands", "why_tests_cant": "the tree, the index of sections and the index of entries are three linked mutable structures changed by every command; they must agree after any sequence of commands on any file, the existing tests have a dozen of samples", "anchors": ["examples/conf-edit/internal/lib.go (lines 34-382)", "examples/conf-edit/conf-edit.go (lines 19-106)", "examples/conf-edit/internal/grammar.llx", "tree/tree.go", "tree/selector.go"]}
{"id": "C73", "title": "parsing does not panic", "statement": "A parse of any text by a compiled grammar ends with a result or an error value, never with a panic: rules found during parsing and lookahead always lead to existing states and nodes, nil tokens are never used, an expected token can always be named.", "quantifier": "all compiled grammars, all texts (valid or not), all node hooks", "why_tests_cant": "a panic needs a combination of grammar, text and option (nil tokens appear only in lookahead before a token of another type); tests run a few of them and none of the failing ones", "anchors": ["parser/parser.go (lines 473-551, 665-683, 726-751, 889-1001)", "parser/misc.go", "lexer/lexer.go"]}
{"id": "C74", "title": "lookahead of many tokens chooses the described tree", "statement": "If the variants of every node differ after some number of tokens and the next token tells whether a node goes on, then the parser, looking ahead as far as it needs, accepts every input described by the grammar and tells hooks exactly the described tree.", "quantifier": "all compiled grammars meeting the condition (any LL(k), the number of tokens is not bounded in advance), all described trees and texts, all hooks that do not fail", "why_tests_cant": "each lookahead depends on all the branches kept at once and on the set of types requested from the lexer; tests try a few grammars with two tokens of lookahead and no side tokens between", "anchors": ["parser/parser.go (lines 665-683, 726-751, 917-1001)", "parser/misc.go (lines 64-94)"]}
{"id": "C75", "title": "the style checker reports exactly what is wrong in the syntax tree", "statement": "For any source the style checker of examples/style-check ends without a panic, with a parse error or with a report. The report contains, sorted by line and column and one per place, exactly the violations of the style rules (final newline, spacing, spaces around operators, alignment of fields, literal structures, indents, trailing spaces, tabs) in the syntax tree of the tokens that were read.", "quantifier": "all sources, all compiled token expressions, all orders of iteration over maps", "why_tests_cant": "every check walks the tree through selectors and neighbour tokens; a missing node, an empty node or an unusual neighbour leads to a nil element, and there is no bound on the trees", "anchors": ["examples/style-check/internal/lib.go (lines 51-408)", "examples/style-check/internal/grammar.go (lines 7-99)", "tree/tree.go (selectors and walking)"]}
{"id": "C76", "title": "the tree validator of the tests accepts exactly the described trees", "statement": "A tree validator made for a tree and an expression returns no error if and only if the expression consists of patterns (a word for a token with this type name or text, `(name ...)` for a node) and these patterns describe the children of the root one by one, nested nodes being described completely; it does not panic. After a parse with the hooks of tests the tree is the parse tree.", "quantifier": "all trees, all expressions, all grammars, sources and other hooks for parsed trees", "why_tests_cant": "the validator is the judge of the parser tests; a validator that accepts too much makes them pass silently", "anchors": ["parser/test/tree.go (lines 17-180)"]}
{"id": "C77", "title": "only described texts are accepted, whatever is read ahead", "statement": "When a text is accepted by a parser told to read the whole input, the text is cut into tokens to its very end, ordinary tokens are the leaves of a tree described by the grammar, and node hooks have been told about that tree. When tokens read ahead are enough to choose what to do, the described texts are exactly the accepted ones.", "quantifier": "all compiled grammars with safe lookahead, any number of lexers, any node hooks, all lists of sources and places in them; for the converse, grammars of C74 with one lexer and without empty nodes", "why_tests_cant": "an accepted text outside of the language or a token lost between a lookahead and the end of input shows only for particular combinations of grammar, lookahead depth and text", "anchors": ["parser/parser.go (lines 262-780)", "lexer/lexer.go (lines 60-172)"]}
{"id": "C78", "title": "the configuration editor reads and edits files from bytes to bytes", "statement": "The example editor, run with any flags on any file, ends with an error about flags exactly if a command is not accepted, with an error about the size exactly if the file is too long, with a parse error, or it reads a beginning of the file: the beginning is cut into tokens, the tokens are the leaves of a tree described by the grammar, and the elements in memory are exactly that document, with the same text. If nothing in the document is repeated, the program panics exactly at a command that breaks it, or saves the text of the document after all the edits meant by the commands; all other values are kept.", "quantifier": "all files, all lists of flags, all regular expression matchers, all upper-case and trimming functions", "why_tests_cant": "the composition of normalization, lexer, parser with side tokens, tree hooks, index of sections and edits has unboundedly many file layouts; tests of the example use a dozen of files", "anchors": ["examples/conf-edit/conf-edit.go (lines 12-106)", "examples/conf-edit/internal/lib.go (lines 291-396)", "examples/conf-edit/internal/grammar.go (lines 7-75)", "examples/conf-edit/internal/grammar.llx (lines 1-19)"]}
{"id": "C79", "title": "configuration files are read line by line to the end", "statement": "A configuration file that consists of blank lines, comments, entries (`name = value` with or without a comment, or `name =`) and section headers, with any spaces and tabs allowed between their parts, is read by the example editor without an error to its very end. The elements in memory have the text of the file, and the entries and sections of the document are exactly those stated by the lines, in their order. Edits then change the stated values as commands say and keep all other ones.", "quantifier": "all files that consist of such lines, all lists of accepted commands; matchers of the expressions of the grammar are fixed, trimming and upper-case functions are arbitrary", "why_tests_cant": "types of tokens depend on what the parser requests at each place (a value may look like a name, a section name like an entry name), and layouts of lines combine in unboundedly many ways", "anchors": ["examples/conf-edit/internal/lib.go (lines 291-396)", "examples/conf-edit/internal/grammar.go (lines 7-75)", "examples/conf-edit/internal/grammar.llx (lines 1-19)", "lexer/lexer.go (lines 60-160)", "parser/parser.go (lines 480-780)"]}
{"id": "C80", "title": "what the configuration editor saves is read back as it was meant", "statement": "Let a configuration file consist of lines (blank lines, comments, entries without comments, section headers) without repeated sections and entries, and let commands be accepted and new values fit in a line. Then the example editor panics exactly at a command that breaks it, or the text it saves consists of such lines again, again without repetitions; when it is read, the reader comes to its very end, and the values of entries are exactly those given by the commands and, for all other entries, those stated by the original lines. So runs of the editor can follow each other.", "quantifier": "all such files, all lists of accepted commands with such values, all functions that trim spaces, all upper-case functions; matchers of the expressions of the grammar are fixed", "why_tests_cant": "the edited tree keeps tokens of the old file between new ones, so the saved text may be cut into other tokens than the tree has; layouts of files and sequences of commands are unbounded, and tests never read the saved text again", "anchors": ["examples/conf-edit/conf-edit.go (lines 12-106)", "examples/conf-edit/internal/lib.go (lines 56-396)", "examples/conf-edit/internal/grammar.go (lines 7-75)", "examples/conf-edit/internal/grammar.llx (lines 1-19)"]}
{"id": "C81", "title": "the calculator answers texts with results of the commands they are written as", "statement": "Let the names used in lines not contain `func`. Whatever bytes are typed in the calculator, every text it computes (a line, or lines joined while a command is not complete) ends, without a panic, in one of three ways: with an error of the parser, and the memory is kept; with the message about unexpected input, then the text before it is cut into tokens that are a command, the message holds exactly the rest of the text, and the memory is kept; or with the result of a command, then the tokens cover the whole text, and the value, the error, and the new memory are those the meaning of the command gives. Lines with `help` show the help, an empty line ends the session.", "quantifier": "all byte strings as lines, all numbers of lines, all depths of calls, all lawful arithmetics, all conversions of numbers, all matchers that match what the expressions of the grammar do, all sufficient amounts of fuel", "why_tests_cant": "the parser looks one token ahead when it chooses between an expression, an assignment, and a function, and a token read ahead must be given back to the source, so the place where the rest begins depends on states of lookahead; texts and sessions are unbounded, tests of the example give only short whole expressions", "anchors": ["examples/calc/calc.go (lines 54-99)", "examples/calc/internal/lib.go (lines 488-545)", "examples/calc/internal/grammar.go (lines 7-151)", "examples/calc/internal/grammar.llx (lines 1-17)", "parser/parser.go (lines 488-540)"]}
{"id": "C82", "title": "a parse leaves sources right after the tokens it has consumed", "statement": "When the parser is not told to check the whole source, parses may follow each other with the same queue of sources, each of them begins where the previous one has stopped. If the grammar has no states with several rules for a token, then for any number of such parses the consumed tokens (without dropped side tokens) are exactly the tokens the text is cut into from its beginning to the place of the queue, the text of these tokens is exactly the text before that place, and the queue is empty only when the text is over; nothing is skipped and nothing is read twice.", "quantifier": "all tables without conflicts, all texts, all sets of lexers made from token types (any number of groups), all node hooks, all numbers of parses, with and without passing side tokens", "why_tests_cant": "a token that ends the root node is given back by moving the queue, also when the end of the source is already passed and the source must be put into the queue again; tests parse every source once and never look at the queue afterwards", "anchors": ["parser/parser.go (lines 475-552)", "source/source.go (lines 200-330)", "examples/calc/internal/lib.go (lines 529-545)"]}
{"id": "C83", "title": "errors of a parse are true", "statement": "When a parse of a source returns an error, the error tells the truth about the text: an error of a lexer means that the text is cut into tokens up to a place where no group of token types gives a token; unexpected end of input means that the whole text is cut into tokens and some state has no rule for the end of input; an unexpected token is a real token of the text (not the end of input, with its type, content and position) and some state has no rule for it; remaining source is returned only if the parser checks the whole source, and its token is a real token of the text that is not a side token; an error of a hook is what some call of a node hook has returned; an error about a wrong token emitted by a hook is never returned when there are no token hooks.", "quantifier": "all grammars (with conflicts and lookahead too), all texts, all sets of lexers made from token types (any number of groups), all node hooks and options", "why_tests_cant": "errors are made in many places, also after lookahead has read tokens and lexer errors have been dropped, and after tokens have been given back to the source; tests compare error codes of a few texts", "anchors": ["parser/parser.go (lines 475-552)", "parser/parser.go (lines 665-751)", "parser/parser.go (lines 809-830)", "parser/errors.go"]}
{"id": "C84", "title": "the calculator never panics", "statement": "Whatever tokens the parser of the calculator gets, also ones that are not a command, node hooks never panic: type assertions in HandleNode get an expression, EndNode is called only when there is something to return, the content of an operator token is not empty. The only errors hooks return are an argument defined twice and an error of strconv.ParseFloat. The result of a successful parse is not nil. Whatever lines are typed, the program does not panic in the parser, in hooks, in slicing of the rest of the input, or in computing (the stack of contexts is never empty).", "quantifier": "all sequences of tokens captured by the lexer, all texts and sequences of lines, all arithmetics (also with rounding), all depths of calls, names like `func` included", "why_tests_cant": "calls of hooks before an error depend on how much of a wrong input is parsed; tests give a few correct and wrong commands", "anchors": ["examples/calc/internal/lib.go (lines 127-545)", "examples/calc/calc.go", "parser/parser.go (lines 350-471)"]}
{"id": "C85", "title": "lexers of a grammar are tried in order", "statement": "When a token is asked for, lexers of groups are tried one after another, each from where the previous one left the sources. The token of the first lexer that gives one is returned, errors of lexers before it are forgotten. If no lexer gives a token, the first error is returned when any token is asked for, nothing is returned when tokens of given types are asked for or when there are no errors.", "quantifier": "all lists of lexers, all sources and positions, all requested types, all amounts of fuel", "why_tests_cant": "which error is kept matters only when several lexers fail differently at the same place; tests use grammars where at most one of groups fails in its own way", "anchors": ["parser/parser.go (lines 809-830)"]}
