# Formal model of ava12/llx

The model is written in Lean 4 (project in `lean/`, modules under `lean/Verif/`).
Layout:

* `Verif/Model/*`  – the model of the Go code, function by function, each definition cites file and lines of `/repo`;
* `Verif/Spec/*`   – small independent specifications (plain lists, sets, recursive trees, languages) that do not use model code;
* `Verif/Proof/*`  – helper lemmas;
* `Verif/Props/*`  – the property theorems `C01…`, each with an `example` showing a non-trivial case meeting its hypotheses.

## Modelling conventions

* Go `int` is `Int` (or `Nat` where the code can only produce non-negative values); overflow is not modelled.
  `uint` bit chunks are `BitVec 64` (64-bit platform).
* A Go slice is a `List`; `a[i]`, `a[i:j]`, `copy(a[i:], b)` are partial operations (`Option`, `none` = run-time panic),
  so a refinement theorem "the model returns `some …`" also says that the Go code does not panic.
  Sharing of backing arrays is modelled only where the code observably depends on it
  (branch lists in `resolveConflict`, rule slices in `dropUnusedStates`, source bytes in the indent layer, tree pointers).
* Pointers: tree elements live in a heap (map from ids to records); nil is `none`.
* Errors are returned as values. Error message texts are not modelled, error codes/kinds are.
* `regexp` is a parameter of the lexer model (an arbitrary function obeying the documented contract of
  `FindSubmatchIndex` for an anchored expression). Unicode decoding (`utf8.DecodeRune`) is modelled exactly.
* User hooks are parameters (arbitrary functions, with an arbitrary state).
* Potentially non-terminating Go loops are modelled by a step function; "terminates" means that a number of steps
  exists after which the loop is done, "hangs" means that for every number of steps it is not.

## Trusted base

* The Lean kernel; axioms used by theorems: at most `propext`, `Classical.choice`, `Quot.sound` (checked with `#print axioms`).
* The correspondence of `Verif/Model/*` with the Go text (by reading; citations in comments).
* Go library functions assumed: `regexp` (as above), `bytes.Count`, `sort`, `strings.ToUpper`, `strconv`, `fmt` (texts not modelled,
  except `%d`, `%q` and `%s` in `llxgen`: `strconv.Quote` is written out in `Model/LlxGen` with `unicode.IsPrint` as a parameter that
  must reject control characters).
* `regexp.Compile` of the expression joined by `parser.New`, `^(?s:(A)|(B)…)`, is modelled as: fails if a part is wrong on its own,
  otherwise matches what the first matching part matches and captures it as its group. That is true for parts that have no
  capturing groups and do not interfere with the text around them (langdef rejects capturing groups; an unclosed `\Q` would interfere).
* `Spec/GoText`: the part of Go's lexical and composite literal syntax that is needed to read the generated file, written from the
  Go specification (comments to the end of the line, automatic semicolons, interpreted strings, decimal numbers). Type checking
  is not covered.

## Plan per property

| id | model | how it is proved |
|----|-------|------------------|
| C01 | `Queue` record with items/mask/head/tail | abstraction function to a list, every operation commutes with it (simulation), induction over histories |
| C02 | `ints.Set` record with window and `BitVec 64` chunks | representation invariant + membership characterisation per operation, induction over histories |
| C03 | same | `ToSlice` sorted and complete; `IsEqual` extensional under the invariant |
| C04 | `Source`, `findLineIndex`, UTF-8 decoder | cache invariant + binary search invariant against newline count |
| C05 | same | corollary of C04 with the cache invariant preserved by queries |
| C06 | `Source.Pos` loop | induction over the rune list of a line |
| C07 | both | composition, decoding of prefixes cut at rune boundaries |
| C08 | `NormalizeNls` loop over a mutable array | loop invariant against a recursive replacement |
| C09 | `source.Queue` on top of the ring buffer model | simulation by a list of positioned sources |
| C10 | same | invariant over histories |
| C11 | same | snapshot/restore theorem through the abstraction |
| C12 | lexer over abstract matcher | measure: bytes left and sources left |
| C13 | same | invariant of the fetch loop |
| C14 | same | induction over the number of calls |
| C15 | same | documented claim is false when insignificant lexemes precede the failure: negation with a witness; partial theorem for lexers where every match captures a group |
| C16 | same | step characterisation + induction over the queue |
| C17 | pointer heap of elements | heap represents a forest (inductive predicate); edits proved against list edits |
| C18 | same | negation witness (new = next sibling of old), partial theorem for the other cases |
| C19 | walker step machine over the heap | simulation by a recursive visitor specification |
| C20 | same | against the document-order token list |
| C21 | same | negation witness, partial theorem when the adjacent sibling subtree contains a token |
| C22 | selectors as functions on element lists | equational |
| C23 | same heap | induction over chains |
| C24 | chunk AST (`Model/Chunk`) + dependency iteration (`Model/Resolve`) | least fixpoint, both directions; negation witness for nodes that may be empty |
| C25 | node graph | reachability closure of the worklist |
| C26 | node graph (`Model/NodeGraph`) over the compiled machine | DFS soundness and completeness; negation witness with `$` |
| C27 | table builder and binary search | sorted-table lemmas |
| C28 | `dropUnusedStates` with shared slices (`Model/Tables`) | negation witness, exact effect, partial theorems when shared slices do not lead past a dropped state |
| C29 | `BuildStates` | negation witnesses, partial theorem for a class of expressions |
| C30 | parser loops with fuel (`Model/Parser`), two amounts: fetching of tokens and the other loops | weights of states (`Spec/Weights`) decrease with every rule that uses no ordinary token, costs of stacks and branches bound every loop (`Proof/RoundHalts`, `ConflictHalts`, `ParseHalts`); sources of lexers shrink (`Proof/SupplyHalts`); compiled machines have such weights if nothing that may be passed without ordinary tokens is repeated or left recursive (`Spec/Empty`, `Proof/ChunkFalls`, `ChunkIdle`); two negation witnesses, endless for every fuel by induction (`Proof/Spin`). With token hook layers (`Spec/HookLimits`, `Proof/HooksHalt`, `HooksRest`): the measure counts queued tokens of every layer and those its hooks owe, `K` more for every token of the layer below; negation `C30_endless_hook` (drop and rewind). Noted: `handleEoi` of the indent layer (`indent.go` 330-346) does not clear `indentStack`, so every further pull at the end of input gives the dedents again; such a layer does not meet the condition |
| C31 | `resolveConflict` with array sharing | simulation of the branch arrays by sets of variants (`Proof/Lookahead`, `Proof/Variants`); two negation witnesses; partial theorem when no branch is overwritten; sufficient static condition (`CalmSet`) |
| C32 | `Model/Parser` | rules applied to the stack are recorded (ghost field `steps`); replaying them against the delivered tokens is a loop invariant |
| C33 | node push/pop with hooks | inductive relation between parse trees and sequences of hook calls; invariant over the stack of unfinished nodes |
| C34 | tree hook instance (`Model/TreeHook`: heap replayed from the log of hook calls, elements numbered by the call creating them) | induction over the notifications of C33: every finished node leaves a separate tree of new elements in a heap showing a forest (C17) |
| C35 | final part of `parse` | negation witness (token made by a hook); loop invariants give "at most the last tried token is lost", and rereading by lexers (`Proof/Reread`) closes that case without hooks; chosen rules use all tokens read ahead or all but the last one (`Proof/Ahead`), so the token put back is always the last one pulled (safe lookaheads, C31) |
| C36 | `pullToken` | relation over sequences of pulls: tokens taken from below, results of hooks, tokens emitted |
| C37 | `PeekToken`/`restore` | the hook program is compared with an ideal one that peeks into a copy of the state; negation witness for changes after a peek |
| C38 | `resolveConflict`/`nextToken` | comparison with a pipeline where hook errors are panics; negation witness (lookahead), partial theorem outside of lookahead |
| C39 | `possibleRuleKeys`, `findRules` | case analysis against a declarative priority |
| C40 | `assignTokenGroups`, `assignStateTokenTypes` (`Model/Compile`) | exact characterisation of the bit set; negation witness for caseless types |
| C41 | `NextOf` with an empty type set | negation witness, partial theorem for states that request some type known to lexers |
| C42 | `Setup` and hook of the convert layer (`Model/Layers`), layer tables of `newHookLayer` | induction over commands against the meaning of a configuration; the hook picked for a token (`Proof/TokenLayer`) |
| C43 | `Setup` and hook of the restrict layer, node part of `newHookLayer` | induction over commands and the node stack; negation witness for the ignored configuration error |
| C44 | `Setup`, `handle` of the indent layer (`Model/Indent`); the aliasing of `ls.spaces` and of `currentIndent` with source bytes is not modelled | refinement to a line reader (`layout`); invariant over token streams for arbitrary lookahead; negation witnesses (doubled end of input, order of spaces, blocks closed again, first line, panic in `Setup`) |
| C45 | escape decoder | refinement to a recursive decoder; negation witness for `\x80…\xff` |
| C46 | reader of descriptions (`Model/LangDef`; the text is a list of tokens and lexer errors, whether a regular expression is valid is a parameter) | measure on the remaining tokens; negation witnesses (hang at end of file), partial theorem for terminated lists |
| C47 | Go text generator (`Model/LlxGen`) and Go tokens (`Spec/GoText`) | negation witness with layers, partial theorem without layers as a corollary of C58 |
| C48 | `NewError` | direct |
| C49 | registry map | direct induction over histories |
| C50 | `getExpectedToken` | two negation witnesses (wrong token, panic); partial theorem through the table layout of C27 |
| C51 | whole compile and parse pipeline | walks of the rule tables (C33) → words accepted by node machines (C39, C27, C28) → words of definitions (C29); partial: grammars whose lookaheads overwrite no branches (`SafeLookahead`) |
| C53 | whole reader of descriptions (`Model/LangDef`) | derivation relation for the documented grammar (`Spec/LangSyntax`, `Spec/LangHead`) and its unambiguity (`Proof/LangUnique`); invariants relating the tables to the items read so far; negation witnesses (names `string` and `token-name`, ignored errors in layers) |
| C54 | same | the state of the three index maps as a function of the items read so far (`Proof/LangTable`, `Proof/LangHead`, `Proof/LangRead`) |
| C55 | same | consequence of the same invariants; acceptance by induction on derivations (`Proof/LangAccept`, `Proof/LangComplete`); negation witnesses (groups, limit) |
| C56 | whole `langdef.Parse` = reader + compiler (`Model/LangParse`) | words of expressions over names (`Spec/LangWords`) are mapped to words of structures by a homomorphism of languages; then C51, C40 for the compiled structures |
| C57 | verdicts of compilation (`Props/CompileTotal`) | every loop has a bound given by the structures; indexes are in range since chunks mention only existing tokens and nodes; each error is compared with the closure that it reports |
| C58 | same | each piece of text moves the Go lexer from one statement start to another and yields the tokens of the value; layers: the tokens `}` `{` are adjacent, which no composite literal allows; values of different grammars differ and tokens determine the value |
| C52 | lexers made by `parser.New` (`Model/NewParser`), described grammars | negation: whatever is matched is returned; partial: symbols of words of described grammars are never error types, then C56 |
| C59 | `parser.New` (`Model/NewParser`), `fetchToken` | groups of lexers against the first matching type of a group (`Spec/FirstMatch`), loop over groups by induction |
| C60 | `newHookLayer`, choice of hooks in `handleToken` and `getNodeHook` (`Model/Pipeline`, `Model/Layers`) | contents of every slot of a layer after filling (`Proof/HookChoice`); indexes of names and texts are injective and kept by later layers |
| C61 | whole compile and parse pipeline, the converse of C51 | a described tree gives a run of the node machines with a stack (`Proof/OneToken`): nested nodes may be opened by all their first tokens (`Proof/ChunkRows`); the parser follows the run if keys to come choose the rule (`Spec/OneToken`, `Proof/OneTokenParse`), including requests of token types and skipped side tokens; a certificate check (`Proof/OneTokenCheck`); negation witnesses (optional item, empty nested node) |
| C62 | whole compile and parse pipeline | the run of C61 carries the described tree: finished parts of open nodes plus the rest (`Proof/TreeFollow`, `Spec/TreeOnly`); each step of the parser shows the same tree to hooks (C33's `NodeRun`); unambiguity: two runs over the same tokens choose the same rules (`Proof/OneTokenUnique`) |
| C63 | whole compile and parse pipeline | C61 for inputs with side tokens anywhere, and its converse: every step of a successful parse is a step of a run of the node machines (`Proof/OneTokenBack`): requests and answers are inverted, a token kept for a nested node is read there by the same key (`Leads`), an unread token is put back and rejected by `restLoop`; a run is a described tree without empty nested nodes (`way_spelled`). `C30_more_steps` (`Proof/ParseFuel`): more fuel does not change an outcome, so rejection excludes a tree. |
| C64 | whole compile and parse pipeline with `tree.NodeHook` | C62 for hooks that fail only when they are given no element (`HooksAnswer`): every node has an instance of layer 0, so every finished node gives an element (`withTree_answer`); then C34's construction of the tree is applied to the run told (`tree_of_closed`). |
| C65 | lexers of `parser.New` under the whole compile and parse pipeline | `Spec/Scan.lean` says how a text is cut into tokens (`Reads`); all outcomes of a token request are those of `Reads` (`pull_text`), so the lexers are a token stream in the sense of C63 (`text_supplies`, `text_rereads`); conversely a successful parse has pulled the end of input, and states of the source queue it goes through are reached by `Reads` (`parse_progress`). For several groups of types `Spec/Requests.lean` says how a text is cut depending on requested types (`CutsFor`): requests possible before a token are those of states in which the token may come. Following the parser along a described tree (`run_followed_on`) makes only such requests, therefore described texts are accepted. |
| C66 | lexers, parser with `WithSides` and `WithFullSource`, `tree.NodeHook` | pulled tokens are pieces of sources one after another (`Spec/Scan.lean`, `Pieces`; `pull_groups` for any number of groups), delivered ones are all of them but ends of sources (`Proof/Lossless`, `Took`); a parse that ends on a token it has to put back fails; C34 and C35 give the leaves and what is left. Finding: side tokens after the end of the root node are read but never passed to node hooks, although `WithSides` is documented as passing all tokens (`C66_trailing_lost`), so a tree is lossless only up to trailing side tokens. |
| C67 | `makeSources` and its helpers of `examples/grammar` | `Spec/Samples.lean` splits a text into lines and groups them; loops are followed by induction on lines. Findings: `contentLines` stops splitting at the first empty line (`C67_empty_line`), the last newline of a sample is kept though documented as dropped (`C67_newline_kept`), samples are not checked to be UTF-8 (`C67_not_checked`). |
| C68 | `printTreeNode`, `printTreeToken`, `printer` of `examples/grammar` | `Spec/Print.lean` gives the items of a tree; an invariant of printers (`POk`) says that the template of indents is long enough (no slice panics) and that finished lines of two or more items fit. Finding: a single long token makes a line wider than the `-w` option allows (`C68_too_wide`). |
| C69 | `NodeHookInstance` of `parser/hooks.go` | `Model/Objects.lean` makes hook instances objects with states: states after any log are obtained by repeating the calls. `Spec/Fold.lean` is a structural fold over parse trees. The proof is an induction over `NodeRun` (C33): older instances are left alone by nested runs. |
| C70 | `langdef/parser.go` loops over `nodeIndex`; `cmd/llxgen`, files of examples | First sets are exact (C24), so they do not depend on orders; more steps never change a result. Finding: error messages list nodes in map order (`C70_message_order`). The examples of `Props/CompileOrder.lean` run the whole model (`langParse`, `makeGo`) on tokens of the three `grammar.llx` files of the repository and get the committed `grammar.go` files byte by byte. |
| C71 | `examples/calc/internal` | The generated grammar is the compiled one (`calc_compiled`). Lookaheads are safe for tokens which the lexer can give (`SafeLookaheadOn`, `calc_safe`): variants are traced symbolically over classes of tokens, so that the language theorem C51/C62 applies to a grammar with conflicts. The reading is unique: written commands are read by a deterministic relation (`Proof/CalcUnique`). Values are the ones of the spec `Spec/Calc.lean` for exact arithmetic; functions see variables of the caller (dynamic scoping, the spec says the same). Findings: `func` as a name (`C71_func_is_lost`), rounding (`C71_rounding`), `-2^2` is 4 while `-x^2` is `-(x^2)` since `-2` is one number token after an operator. |
| C72 | `examples/conf-edit` | Heap model of trees (C19-C25) plus the index of sections and entries. `Spec/Conf.lean` describes documents as lists of items, parts and tokens, edits are relations on documents. The invariant `Inv` (`Proof/ConfIndex`): the forest represents the heap, sections and entries of the index are exactly the ones of the tree. Each command keeps it (`ConfValue`, `ConfAdd`, `ConfOpen`, `ConfDrop`, `ConfEntry`), loading establishes it (`ConfLoad`), `Proof/ConfBuild` has a tree for every document. Findings, all with witnesses: panic after the last entry of the default section is removed (`C72_panic_after_removal`), panic for a section after a comment (`C72_panic_after_comment`), repeated sections are not removed (`C72_section_stays`), a value is lost when the entry was repeated (`C72_value_is_lost`), a new entry is joined to a line without a line feed or to a line with a comment (`C72_lines_are_joined`, `C72_comment_is_moved`). Noted: text after the first unexpected token is dropped since the parser is run without `WithFullSource`, values with line feeds or `#` are not checked |
| C73 | whole parser, lexers | An invariant of all states of the parser (`Proof/NoPanic`): stacks hold existing states, pending rules are good, pending tokens are of known types; pointers of `resolveConflict` are valid whatever branches are overwritten. Nil tokens may be pending, but rules chosen by lookahead use up all its tokens but the last one (`Proof/LeftOver`), so an error message is made from a fresh token. Tables of compiled grammars are sound (`compiled_sound`), lexers answer (`pipeline_answers`). Findings: `C73_full_source_panics` (nil token dereferenced at lines 534-549), `C73_end_panics`. Token hooks (`Proof/HooksPanic`): queued tokens passed `isValidType`, the choice of a hook stays in bounds as layers made by `newTokenLayer` have at least 4 places; `HooksSafe` asks of a hook only not to panic by itself when peeking gives a token or an error |
| C74 | resolveConflict, whole parser, lexers | The right branch is followed by induction on lookahead rounds: it is always among the kept ones, and every other kept branch dies (`Settles`, a condition on pairs of ways that may read the same tokens) or is the same one (`Proof/ManyTokensAhead`). Executable sound check: `settleCheck` (pairs of runs with the same tokens). Findings: `C74_hidden_token_rejects` (the token after the node is not requested while looking ahead, so the lexer hides it), `C74_side_tokens_reject` (a branch that left the node cannot take a side token and is dropped) |
| C75 | style-check example: hook, grammar, parser, tree, all checks, report | Every check is followed by selector lemmas of C68-C70 over the represented tree (`Proof/StyleChecks`, `StyleSpaces`, `StyleLines`); the rules are a separate specification over labelled trees (`Spec/Style`). Trees made by the parser can be checked because the items are described by the grammar (C51) and the tree hook repeats them (C34): every node has a token, every definition has a name (`Proof/StyleParse`). Totality: C30 and C73 with token hooks. Findings: `C75_comments_dropped`, `C75_first_line`, `C75_tab_width`, `C75_rest_ignored` |
| C76 | test tree validator: lexing of expressions, stack of nodes, hooks of tests | The commands read so far are always patterns of finished trees plus beginnings of open nodes (`Seen` in `Proof/TestTree`), every command keeps it; the converse is induction over patterns. Texts: every spelling of words is split back into them. Parsed trees: fold of C69. Findings: `C76_rest_unnoticed`, `C76_empty`, `C76_panics` |
| C77 | accepted texts for lookahead of any depth | Tokens delivered to the parser are always the kept part of a cut of the text up to the current place (`Cut` in `Proof/Cuts`), also while tokens are read ahead (`parse_kept` of C35); nothing but side tokens is left after the last step; consumed tokens are the leaves of a described tree (`accepted_words`, C51), and side tokens never stand for symbols. The converse is C74 |
| C78 | `examples/conf-edit` as a whole | The generated tables are the compiled description (`Props/ConfTables`, by computation), so C73 gives termination without panics, `accepted_words` (C51) a described tree, `parse_cut_part` (`Proof/CutsPart`: consumed tokens are cut from the beginning of the only source) the text. The tree hook makes the elements of that tree (C34); `Proof/ConfParse` derives what C72 needs to know about documents: names of token types from the cut, entries begin with their names because side tokens do not begin nested nodes (`C33_side_places`), sections contain their names. Findings: the rest of a file after an unexpected token is lost without an error because `WithFullSource` is not used (`C78_rest_is_lost`); an entry is added to a line with a comment (`C78_lines_are_joined`); a comment after the header of a section is a parse error because the comment takes the line feed (`C78_header_comment`) |
| C79 | `examples/conf-edit` on files made of lines | `Spec/ConfText.lean` gives texts of lines and what they state, without grammars. `Proof/ConfCut` cuts such a text from its end: at every token all states in which it may come are known (`comesIn`), and no other requested type of an earlier group begins with the same byte, so the token is answered whatever is requested (`CutsFor` of C65). `Proof/ConfLines` follows the node machines line by line (`GreedyWay`), then `run_followed_on` (C65) gives the parse, `parse_cut_whole` (`Proof/CutsWhole`) the whole text, `Proof/ConfStates` drops side tokens. Finding: a comment instead of a value makes the next line the value of the entry, it is then replaced or removed with the entry (`C79_next_line_is_value`) |
| C80 | `examples/conf-edit` run after run | Documents that can be written as lines are described by `Clean` (`Proof/ConfClean`): the default section is the first one, entries and headers are on lines of their own, side tokens are spaces and whole comments. A plain file gives a clean document (`Proof/ConfPlain`: tokens between tokens of a node are spaces, because no comment comes after an ordinary token in a line, `Flat` of `Proof/ConfCut`), every edit of C72 keeps it (`edits_clean`), and the text of a clean document is the text of lines that state its entries (`doc_lines`). Spaces left at the end of the text become a blank line. Then C79 reads it. Findings with witnesses: new values are not checked, `-s 'a=1#2'` is read back as `1`, a value with a line feed adds an entry (`C80_value_with_sign`, `C80_value_is_a_line`); clearing a value before a comment makes the next line the value (`C80_cleared_before_comment`) |
| C81 | `examples/calc` as a program | `Model/Calc/Compute.lean` adds `Compute` and the loop of `calc.go` to the model of C71. Tokens of the lexer model are tokens C71 needs (`Proof/Captured`, any state of the queue). The place where the parse stops: `Proof/CalcStop` follows tokens read ahead through the loop (`calc_stops`: when the root node ends, at most one token is read and not consumed), `Proof/CutsEnd` says that the queue is then right after the last consumed token. Termination is C73 with ranks of nodes. Findings with witnesses: `helper=2` shows the help and is not performed (`C81_help_in_names`), the help drops pending input (`C81_help_drops_input`) |
| C82 | end of `parse` in `parser/parser.go` | The loop keeps no tokens ahead when there are no conflicts (`quiet_inv`), so when the root node ends at most the last token is read and not consumed; `cut_end` (`Proof/CutsEnd`) follows it back to the queue, also into an already empty one. Series of parses by induction, because the place of the queue is a state the next parse can begin in. Finding with a witness: with `root = 'x' | ('x', 'y')` and the text `x x` the second `x` is read ahead to choose a rule, the root node ends with the first `x` consumed, and tokens read ahead are not given back: the queue is left at the end of the text (`C82_token_is_lost`). Lines 522-531 give back only `tok`, never `pc.tokens` |
| C83 | errors of `parse` | `Proof/Failing.lean`: errors are followed back through all functions of the parser (`LoopErr`, `parse_err`, for any invariant of the loop); the invariant is that all delivered tokens are cut from the text (`kept_inv` with `Cut`), so tokens read ahead are covered. After a token is given back the queue is again at a place tokens are cut up to (`putBack_within`). The statement uses `Explains` in `Spec/Failing.lean`, written with the cutting relation only. `C83_sources_partial` is the same for any number of sources added to the queue, without the check of the remaining source. C81 uses it: errors the calculator answers with have reasons now (`Reason` in `Spec/CalcText.lean`) |
| C84 | `examples/calc`, panics | `Proof/CalcCalm.lean`: the invariant `Ready` of the stack of nodes: each node has a live instance of the right type, and a node whose state says that it is (almost) finished may be ended, maybe with the result of the node being parsed inside. Rules of the grammar keep it (`rules_ok`, all kinds of tokens and all states are checked by the kernel), the rest follows calls of hooks through `pushNode`, `handleNodeToken`, `popLoop`, `applyRule` for arbitrary logs. `LoopErr.rule` of `Proof/Failing.lean` leads an error back to a call of `applyRule` with the invariant. `Proof/CalcKeeps.lean`: computing keeps the number of frames. Unlike C71 and C81 neither exact arithmetic nor absence of `func` is assumed. C81 uses it: `Reason` allows only expected errors of hooks, and `hooks_fair_at` joins `Ready` with the invariant of C83, so they are about tokens of the text |
| C85 | `fetchToken` | `Spec/Fetch.lean` says with `Tries` (lexers that give no token, with their errors) what is returned, `C85_fetch` is an equivalence with the model. `C59_first_error` is one direction of a part of it, stated when no lexer gives a token; here tokens, hidden errors, and the converse are covered too, for arbitrary lexers |
