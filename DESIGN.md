# Design of the Lean model of Open Dylan

The subject is the source in `/repo` (dylan-lang/opendylan, pinned commit), read as text.
The model lives in `lean/Verif/<Area>/`, one directory per subsystem.  In each area

* `Model.lean` (possibly split) holds the transcription of the code, function by function; every
  definition cites the file and the lines it models and says where it simplifies;
* `Spec.lean` (where the specification needs definitions) holds the small independent specification:
  mathematical sequences, finite maps, integer arithmetic, sets, traces;
* `Lemmas.lean` holds helper lemmas;
* `Props.lean` holds the property theorems (and the counterexample theorems), each with a
  non-vacuity `example`.

Conventions.

* Undefined behaviour, out-of-bounds access, signalled errors and non-termination are *distinct
  outcomes* of the model (constructors of a result type, `Option`, or an explicit fuel argument whose
  sufficiency is itself a theorem).  No property is proved by totalising a failing case.
* Where the code violates the property, the negation is proved as a theorem with a concrete witness
  (suffix `_violated`/`_counterexample`), and the largest clean part of the property that does hold is
  proved under the suffix `_partial`.
* A property marked *partial* in `MANIFEST.json` is either violated by the code in some corner (the note
  says so and names the counterexample theorem) or proved for a stated sub-domain only.

## Trusted base

* The Lean 4.33.0 kernel, and the axioms `propext`, `Classical.choice`, `Quot.sound` (as reported by
  `#print axioms`; no theorem uses any other axiom, no `sorry`, no `native_decide`, no `bv_decide`).
* The transcription of the Dylan/C source into Lean by hand (this is what the citations are for).
* The semantics of the host languages as used by the transcription: Dylan `for`/`while`/`iterate`, C99
  integer semantics on an LP64 machine (64-bit `long`, `DWORD` = 64-bit word), POSIX mutex/condition
  semantics for the thread primitives.
* Not modelled anywhere: the code generators, the garbage collector itself (only its observable effect
  on address hashes), floating point, class redefinition, the Windows back end unless said otherwise.

## Plan per property

| id | model | proof |
|----|-------|-------|
| C01 | `Sort`: vectors as `List`/functions with explicit index ranges; `insertion-sort!`, `primitive-merge!`, `merge-sort!` transcribed as recursive functions on arrays | merge of stable sorted halves is stable-sorted permutation; induction on range length |
| C02 | `Sort`: `partition!`, `median-of-three`, `quick-sort!` with an explicit out-of-range outcome | partition invariant, measure `end - start`; strict weak order hypotheses |
| C03 | same model as C02, arbitrary test | counterexample theorem for a non-strict test; partial: safe for strict weak orders |
| C04–C06 | `Deque`: representation = backing array plus first/last index, all index arithmetic as in the code | abstraction function to `List`; representation invariant by induction over histories |
| C07–C09 | `Table`: single-threaded `table.dylan`: the real entry counts, strides and limits, entry vectors with empty, deleted and full entries, rehashing in place and into a copy, iteration states referring to old vectors, growth errors; hash codes change at arbitrary times, `is-stale?` may answer spuriously. Not modelled: weak tables, tables without values, other threads | probe sequences visit every entry (odd prime counts); placement invariant up to recorded hash times; every step simulates a step of a map with cursors; quiet worlds for termination; induction over whole iterations |
| C10–C12, C40 | `Range`: the four representations (empty/constant/finite/infinite) over unbounded `Int`; element overflow is not modelled | arithmetic over `Int`; counterexamples by `decide` |
| C13, C14, C43, C44 | `Class`: a world is a list of class records (rcpl vector, positions, masks, joint classes, installed `instance?` code); both precedence-list algorithms; run-time class creation; the compiler's layout of a library and the load-time updates; the compiler's search for witnesses. Not modelled: sealing, abstract classes, redefinition, incomplete classes | induction over the merge (soundness and completeness); an invariant of worlds kept by every history; the bit masks by `testBit` |
| C45–C47 | `Slots`: over the precedence lists of a `Class` world, the collection and allocation of slots, merging of the first primary superclass's vectors, offset search, the compiler's fixed-offset decision with a partial view of the subclasses, slot access and the lazily created cells of class slots. Every slot is one word; no types, threads or redefinition | invariants of the two vectors; a layout is exact when getters are distinct; fixed offsets by prefix of the primary layout or by comparison of all known subclasses; refinement of class-slot histories to independent variables |
| C48, C49 | `Init`: effective descriptors, recorded and on-demand defaults, the constructor of the run-time system and the one the compiler writes, the decision that a slot is always initialised. Not modelled: repeated and class slots, raw types, `initialize` methods, effects of init functions | the loops against `find?` over the concatenated clauses; outcome relation per slot; monotonicity of guarantees along sublists of precedence lists |
| C50 | `Threads/ReadWrite`: the state word, the inner lock and the set of waiting threads; one step per shared access, time-outs and spurious wake-ups at any time | refinement of every execution to the documented lock; a second refinement, with known readers, for disciplined threads; an invariant on un-notified waiters |
| C51 | `Dispatch/Table`: the monomorphic, linear and hashed class-keyed discriminators, with their index arithmetic, growth and rehashing | invariant: every stored key is found on its own probe path, and at least a quarter of the slots is empty; steps coprime to the size reach every slot |
| C52 | `Dispatch/Model` (ordering part), `Dispatch/Order`: comparison of specializers and of methods, insertion of applicable methods into the ordered and the ambiguous list | case analysis against the language rule; invariant of the two lists; uniqueness of the sorted result |
| C53 | `Dispatch/Model` (engine part), `Dispatch/Engine`: the engine as a tree of tables by class, by class object and by singleton, type tests and terminal nodes; walking it, extending it on a miss; histories of calls | invariant of the tree: every node is right for all arguments that lead to it, and an absent node is reached only by arguments that the rest of the computation treats alike; kept by every extension |
| C54 | `Dispatch/Gf`: the list of methods with its libraries, `add-method`, `remove-method`, `find-method`, and histories of these and of calls through the cache of C53 | list lemmas for the in-place updates; invariant: no two methods with the same specializers, the entries are those of the abstract set, and the cache is right for the current methods |
| C55 | `IntString`: `integer-to-string` and `string-to-integer` with overflow checks on every operation | the digit loops compute positional numerals; unique decomposition of a text into blanks, sign, digits and rest; round trip |
| C56 | `Date`: `leap-year?`, `days-in-month`, `days-since-1900` with its two branches, `date-day-of-week`, the checks of `initialize` | closed form of the day number; it steps by one from each day to the next; a numbering with that property is unique |
| C57 | `Date`: `compute-universal-time`, the cached slots, `canonicalize-date` with its two loops, `date-time-zone-offset-setter`, sums and differences, the condition about the day with three responses of a handler | every carry keeps the number of microseconds; the loops end because each turn takes off a month; histories by induction |
| C58 | `Date`: `canonicalize-duration` and all arithmetic on durations (scaling and dividing by integers only) | each adjustment keeps the length; case analysis of the signs |
| C59 | `Date/Text`: `format-date`, `parse-date-string`, `split-iso8601-string` | recursive-descent parser against an inductive grammar, both directions; round trip by induction over the pieces of the control string |
| C60 | `Stretchy`: the representation with its unchecked slots, `trusted-size-setter` with its copy and fill loops, `add!`, `element`, `element-setter`, `remove!`, `make`, `as` | refinement of a relation on lists; the invariant says what the hidden slots hold |
| C61 | `Lists`: memory as a map from addresses to cells, cell 0 being the empty list; the two-speed loop of `size` | the two positions are iterates of the tail; for a circular list they meet because the walk is periodic |
| C62 | the reading and copying loops of `list.dylan` on that memory, with fuel | induction along the chain of pairs; fresh pairs lie beyond the memory in use, so nothing old changes |
| C63 | the destructive loops of `list.dylan` | the invariant is a chain kept so far, linked to the rest; frame conditions from the disjointness of the pairs |
| C64 | `c-run-time-nlx.c` and the code the C back end emits around it; programs are well-founded trees of calls, blocks, exits and cleanup clauses, with the compiler's choice between `goto` and `NLX` | a meaning with no frames and no jumps; simulation by induction on the program, where an exit under way is `nlx_step` about to be called with the current frame of the block |
| C65 | the same | the events of the meaning are balanced brackets with distinct numbers; carried over by the simulation |
| C66 | the entry points of methods in `c-run-time.c` with their buffers, varargs, checks and keyword loops | equality with a binding function on lists; buffers described word by word; keyword loop by induction from the last pair to the first |
| C67 | `primitive_apply` and `primitive_xep_apply` | equality with the call, through the same lemma on entry points |
| C68 | entry points of generic functions, keyed engine nodes, `key_mep`, `determine-call-keywords` and the choice of the engine node, `invalid-keyword-trap` | equality with a meaning in terms of all applicable methods; the set of keywords computed by the loops is the union |
| C69 | `table.dylan` as a transition system of threads with one memory access per step: lock-free searches, stores under the lock, rehashing in place and into a copy, `remove-all-keys!`; a moving collector | linearizability: a simulation between the state and an order of the calls, with what each thread knows at each point; reads that are overtaken are inserted into the past of the order |
| C70 | `gethash-or-set` and `make-symbol` of `symbol-table.dylan` in the same system | from C69, by induction over the order of the calls |
| C71 | `bit-vector.dylan`: the five word loops with their masks and pads, on vectors in a heap of 64-bit words | the loops write one word per round: one lemma gives the final heap; then bit by bit |
| C72 | `bit-set.dylan`: all calls that make, change and question sets | simulation with sets of natural numbers; sets share no vector but the empty one |
| C73 | the iteration states of bit sets, with their shifted and rotated words | each step finds the next set bit; induction over what is left |
| C74 | `element`, `element-setter`, `fill!`, `bit-count` | as C71; counting block by block |
| C75 | `file-stream.dylan`, `buffered-stream.dylan`, `buffer.dylan` and the POSIX accessor, call by call, on one buffer of any size | a stream shows a file: buffer over file; each call keeps this and answers like the file; induction over histories |
| C76 | the same, direction output | as C75, with the state after `force-output` behind the end kept apart |
| C77 | the same, direction input-output | as C75, with a condition on histories that excludes the calls on which the code fails |
| C78 | the comparison of the count with `on-end-of-stream` in `read` | from the invariant of C75 |
| C79 | the branches for positions past the end, with the shared `$null-buffer` | computation of the branch |
| C80 | `sequence-stream.dylan` and the positions of `stream.dylan`, call by call | the sequence is prefix ++ items ++ rest; each call keeps this and answers like the items with a position; induction over histories |
| C81 | the same | instance of C80 and induction over the writes |
| C82 | `convenience.dylan` over any source with `stream-at-end?`, `read-element` and `peek` | induction over the elements left; sequence and file streams shown to be sources |
| C83 | `read-into!` of sequence streams | computation of the loop |
| C84 | `Locators`: paths and POSIX locators, `system/locators/utilities.dylan`, `locators.dylan`, `posix-locators.dylan` | the parsing loop gives the non-empty pieces; the printing loop fills its buffer exactly; places by folding over the items |
| C85 | `simplify-path` | the new path is names over parents; induction over the items; normal forms with the same effect are equal |
| C86 | `relative-path` | the loop finds the longest shared part; as many parents as names cancel |
| C87 | `merge-locators`, `subdirectory-locator`, `file-locator` | folding over an appended path |
| C88 | `locator-directory`, `locator-name` | computation on the last item |
| C89 | `Common`: `split` with functions, objects and sequences, `common-dylan/common-extensions.dylan` | the search finds the first cut; induction over the rounds of the loop |
| C90 | `join` | the loop fills the result exactly; parts cut everywhere are unique |
| C91 | `position` (vectors and other sequences), `find-key`, `find-element` | the list of the positions that pass the test; induction over the loop |
| C92 | `fill-table!`, `difference` | induction over the pairs |
| C93 | `Iter`: the iteration protocol of lists, vectors and deques, and `fill!`, `replace-elements!`, `copy-sequence`, `replace-subsequence!`, `concatenate-as` written with it (`mutable-collection.dylan`, `mutable-sequence.dylan`, `sequence.dylan`, `collection.dylan`) | states correspond to indices for each kind; induction over the loops |
| C94 | `subsequence-position` | invariant of the search: the elements matched so far; the list of the places |
| C95 | `=` for sequences, arrays, tables and mixed | induction; counting of distinct keys |
| C96 | `choose`, `choose-by`, `remove`, `remove-duplicates`, `union`, `intersection`, `member?`, `any?`, `every?`, `add-new` | induction over the loops |
| C97 | `map-into` for all kinds of targets and sources, `collection.dylan` | induction over the sources |
| C98 | iteration over several collections, `multiple-collection.dylan` | induction over the first collection that has keys |
| C99 | accumulators, `accumulator.dylan` | invariant: the buffers hold the elements in chunks of 24; inversion; counting of keys |
| C100 | `BigInt`: integers as a tagged word or two words; `+`, `-`, `negative`, `abs`, the comparisons (`double-integer.dylan`, `double-integer-basics.dylan`), with the LLVM primitives of `MachineWord` | the words denote numbers (`sval`); each function against the number its arguments denote |
| C101 | `*` | the product of the words up to `2^128`, then the sign test |
| C102 | `truncate/`, `floor/`, `ceiling/`, with the division in three steps | the three steps are one division if nothing is negative |
| C103 | `ash`, `lsh`, the logical functions, `logbit?` | arithmetic of disjoint words; bits of the 128-bit number |
| C104 | `^` | invariant of the loop: `base^p * x` |
| C105 | `number-to-string`, `integer-length` | induction over the digits; `log2` |
| C106 | `Signal`: programs as trees with `signal`, `error`, `let handler`, exception clauses, exits, cleanup clauses, `next-handler`, last handlers; run with the variable `*current-handlers*` that the macros set and restore, and the variable `done-last?` of `signal`, by a number of steps | a meaning in which the handlers in force are an argument and exception clauses are run after unwinding; simulation by induction over the steps |
| C107–C110 | the same | cases of the run; induction over the steps (`error`) and over the handlers |
| C111 | `Reader/Binop`: the sequences of operands and operators that the parser's actions build and fold | a specification of grouped trees by level and side; invariant of the sequence (levels increase), uniqueness by induction over trees |
| C112, C113 | `Reader/Lexer`: `get-token` over the table of 201 states (`Reader/Table`, generated from lexer-transitions.dylan), with its actions and positions | invariants of the machine by induction over the source; facts about single states by evaluation over all states and bytes |
| C114 | `Reader/Offsets`: packed offsets and positions in words of 64 bits, unpacked ones, their order | fields of words as sums; linear arithmetic |
| C115 | `Reader/Table`, `Reader/Lexer`: the states of names | a word leads through states without actions (`Reader/LexerRun`); invariant set of states |
| C116–C119 | `Reader/Literals`: `parse-integer`, escapes, `decode-string`, `extract-string-contents`; the token by `Reader/Lexer` | a specification of the texts of literals with their meanings (`Reader/LiteralsSpec`, `Reader/MultiSpec`); induction over the text, with the count of quotes as an invariant |
| C120 | `Reader/Lexer` with its counts of comments | a grammar of nested comments (`Reader/CommentSpec`); induction over it, the depth is the difference of the counts |
| C121 | `Reader/Float`: `atof` up to the floating point arithmetic | induction over the digits |
| C122 | `Names/Filter`: the filters of use clauses as functions on names; symbols without case, with an arbitrary spelling | the meaning of a clause as a relation (`Names/FilterSpec`); membership in the lists the filter computes |
| C123, C124 | `Names/Modules`: imports, exports, re-export tables, caches, lookups and warnings of modules; tables in an arbitrary order | exports and imports as relations on the definitions (`Names/ModulesSpec`); an invariant of all modules, kept by every definition and lookup, with an induction over the modules for the tables made on demand |
| C125 | `Names/Uses`: the walk over used namespaces | induction over the depth; the order is an invariant of what is collected |
| C126 | `Reader/Hash`: the data of `#:name:` literals | induction over the data; the end is the first closing delimiter without a backslash before it |
| C127 | `Format/Model`: `format` of io with fields and directives | pieces of a control string are specified apart from the parser; induction over the pieces, and over the length of the string for the converse |
| C128 | `Format/Model`: `format-to-string` of common-dylan | both outcomes are characterised exactly; induction over the control string |
| C129 | `Print/Escape`: printed characters, strings and symbols | each printed character is an item of the reader's literals (C117, C118); a finite check over the 256 bytes and induction over the string |
| C130 | `Print/Structure`: printed lists and vectors with level and length | the object as a tree, cut and written, is specified apart from the loops; mutual induction over objects |
| C131 | `Print/Circle`: both passes of circular printing on a heap of objects that may hold themselves | the tags as an invariant of every step; termination by the number of objects without a tag; the objects that are printed without end are characterised exactly |
| C132 | `Macro/Pattern`: the matcher made of a macro pattern, over fragments; the parser of constraints is a parameter | a declarative reading of fragments by a pattern; soundness, completeness and least wildcards by mutual induction over the pattern |
| C133 | `Macro/Expand`: rule sets, auxiliary rules and templates on top of the matcher of C132 | a declarative big-step expansion over fragments; the code agrees with it in both directions, by induction over the depth and over the derivation; readings are proved unique |
| C134 | `Macro/Constraint`: the lexer and the retries of constraint parsing; the parser is any machine that reads tokens and refuses one when no phrase goes on with it | invariant on where the lexer is; each attempt excludes all longer phrases; termination by the falling limit |
| C135 | `Hash/Model`: `==`, `object-hash`, `=` and `string-hash`, the test and the hash of the symbol table, `=` on collections, `collection-hash`, `sequence-hash`; the keys' addresses are functions of time | case analysis on the classes of keys; the worlds of the three built-in tables shown lawful, so that the theorem on tables (C07) applies; matching up equal collections by taking entries out |
| C136 | `Loops/Model`: the nine steps of the conversion of `for` into computations on temporaries, these computations, and the shadow variables of the C back end; expressions, calls and iteration protocols are arbitrary functions on an arbitrary state | simulation of the steps of the manual (`Loops/Spec`), step by step; induction over the clauses and over the rounds |
| C137 | `Arrays/Model`: `make`, `row-major-index`, `aref`, `aref-setter`, `element`, `element-setter`, `size` and `shallow-copy` of arrays, with 62-bit integers that overflow and the unsigned comparison of tagged words of `element-range-check`; an access outside of the storage is an outcome of its own | refinement to one variable for each list of subscripts (`Arrays/Spec`), by induction over the dimensions and over the history |
| C138 | `Indent/Model`: `write`, `write-element`, `new-line` and `indent` of indenting streams over a stream that takes everything; integers are not bounded | the loop of `write` is reduced to `write-element`, and these to a specification by lines (`Indent/Spec`), by induction over the text and over the history |
| C139 | `Cse/Model`: `share-common-subexpressions` on the flow graph of one function, written as nested code (if, loop, bind-exit, unwind-protect, primitive calls, slot values, binding references, anything else), with the adjectives of primitives; one level of the walk that runs out of a folded branch | code has a meaning of its own (`Cse/Spec`: worlds, outcomes, rounds of loops); a simulation with an invariant on replacements and available computations, by induction over the code, gives equal results for every number of rounds; four witnesses of the contrary for the pass and the primitives as they are |
| C140 | `MwFold/Model`: the folders of the primitives on machine words, with the extraction of operands with and without sign, `make-raw-literal`, `make-raw-literal-with-overflow` and 128-bit arithmetic of the compiler | what the operations do when run is `MwFold/Spec`, on words of 64 bits, after the manual; each body is shown to agree with it through the word that a constant stands for, for all numbers; the folders of the checked subtraction and of `floor/` are shown to be wrong for some signs |
| C141 | `MwPeep/Model`: the optimizers of calls of primitives on machine words, which look at constants and at the calls that made the arguments: neutral elements, merging of masks, tags that are put on and taken off, operations undone by a shift or a mask, shifts to and fro, fields at offset zero | a term means the word that the operations of `MwFold/Spec` return; each rule is shown to keep it for all values, and the three that do not are shown to be wrong for every constant they are used on |
| C142 | `WordString/Model`: `machine-word-to-string` and `string-to-machine-word`, over the integer conversion of C55 | sixteen digits are shown to be written; a text is shown to have one division into blanks, prefix, digits and rest, of which the digits give the word; the round trip follows for each prefix |
| C143 | `Plist/Model`: property lists in vectors, with each unchecked access as a possible failure, and in lists of pairs in a memory: `get-property`, `put-property!`, `remove-property!`, `keyword-sequence`, `value-sequence`, `remove-keywords` and the `concatenate!` of lists | a property list means the list of its properties; each function is shown to do the operation on that list, by invariants of its loop (the elements kept, those in between, those to come) and, for lists, with the pairs that it may change |
| C144 | `Random/Model`: `make`, `random-29` and `random` of the simple random number generator, as 61 shift registers side by side in the words of a vector | an invariant of the vector over all histories: no register is all zero (the last step is invertible), and registers 29 to 60 are equal; the search for a number below the limit ends since 54 ones are followed by a zero |
| C145 | `Bitcode/Model`: the bitcode stream with its accumulator, `write-fixed`, `write-vbr` of words and double words, `write-alignword`, `write-blob`, definitions of abbreviations, records with and without them, and `with-block-output` with the length patched in afterwards; `BLOCKINFO` definitions and the names of records are not modelled | the specification is a reader of LLVM's format on bits; each writer is shown to append bits that the reader's part reads back, given that the rest of the file ends at a word; then by induction on the items and the nesting of blocks |
| C146 | `Glob/Model`: the regular expressions of the build system with their first, last and follow positions, `regular-expression-dfa` with its list of work and its search for a state with the same set, the parser of patterns of file names, and the function made by `glob-match-function`; the table of states is searched with its test and not by hash codes, `deterministic?` is not modelled, nor is the cache of `parse-regular-expression` | the specification is a list of parts, how each is written and which strings it stands for; the follow positions are shown to describe the strings of the expression (Glushkov), the states are sets of positions with an invariant over the list of work, the number of states is bounded by the number of sets, and the parser is inverted |
| C147 | `Header/Model`: `read-header-from-stream` with `read-line`, components, continuation lines, the table and the keywords that may occur once, and the module and language taken from it; a stream is the rest of its characters, a signal of a badly formed header ends the reading, and `strip` is from a library outside the repository | the specification splits the file into lines and takes those before the first blank one; the reader, which works on characters, is shown to do the same for every list of lines, and every file has one |
| C148 | `CmdLine/Model`: `quote-argument` of the build tool and `tokenize-command-line`, each in its Unix and its Windows version, as machines over characters | for every list of arguments, with any white space around them, the tokens of the quoted arguments are these arguments; the lemmas run the tokenizer over one quoted argument, with any number of backslashes before a quotation mark; `_partial`, as newlines and, on Unix, apostrophes are excluded |
| C149 | the same quoting functions, against a small specification of how a Unix shell splits a simple command into words (`CmdLine/Spec`), and against the rule that operators of the Windows command interpreter are between quotation marks | induction over the arguments; `_partial`, as patterns, comments, `~` and newlines (Unix) and operators after a backslash (Windows) are not quoted |
| C150 | `Pool/Model`: the thread pool of the build tool as a transition system: the workers, `thread-pool-add`, `-start` and `-stop`, with releases that wake up any one waiting thread and wake-ups without release; what is done under the lock is one step, and tasks end normally | invariant over all interleavings and any number of threads; a measure that each step of a worker makes smaller bounds the runs of the workers, and in a state in which none can go on the queue is empty |
| C151 | the same model; `join-thread` of several threads returns when one has ended | invariant for pools of one thread; for larger ones the claim is refuted by executions, and a weaker bound is proved (`_partial`) |
| C152 | `Pool/Model`: the blocking queue with any number of threads that push and that call `blocking-pop` | invariant over all interleavings: if a thread sleeps, there is a woken one for each element |
| C153 | `JamBuild/Model`: the graph that `action-command-add-successor` makes, and `complete-command` over it, with any statuses; binding and expanding targets are not modelled, the calls that make the graph are any; placeholders are completed at any time instead of at once, which allows more interleavings | invariant: the count of a command is the number of its predecessors that are not complete, and a command was begun once if its count is zero and not at all if it is not; a measure for the end of builds; `_partial`, as ignored failures before placeholders and circles are refuted |
| C154 | `JamBind/Model`: `bind-aux` of `jam-target-build` over targets numbered so that dependencies come first, each reached first from any target, and the test of `expand` that decides whether actions are run; included files and actions with several targets are not modelled | equations for the status and the date of a target from those of its dependencies, bounds of the fold over the dependencies from both sides, induction over chains and numbers; `_partial`, as newer files behind targets that are not files are refuted |
| C155 | `TList/Model`: the operations of `<t-list>` over a memory of pairs, with any number of lists; printing, copying and conversions are not modelled | separation: each usable list is a chain of pairs without repetition that ends at its last pair, and no two share pairs; every operation keeps this and returns what the operation on plain lists returns; `_partial`, as lists used after they were appended, a list appended to itself and the element just behind the end are refuted |
| C156 | `ClSeq/Model`: the loops of `cl-position`, `cl-count`, `cl-substitute!`, `cl-remove!` and `cl-remove-duplicates!` on sequences that are not lists, with `test:`, `key:` and the item as one function; `replace?:`, searching, mismatch and the methods on lists, which are not implemented, are not modelled | the visited indices are sorted, so that the first hit is the extreme one; induction over the indices with what was kept and what is untouched; `_partial`, as `cl-remove!` with an end, a count or from the end is refuted |
| C157 | `JamExpand/Model`: `jam-expand-arg`, `jam-expand-arg-product` and `jam-expand-list`, over characters with a mark that says whether they were written or come from a value; what modifiers after a colon and selections in brackets do is any function | refinement: texts with nested variables are written and expanded, by induction over the text; the search for the closing parenthesis passes over nested ones |
| C158 | `JamNames/Model`: `extract-grist`, `strip-grist`, `add-grist`, `jam-builtin-split` over the model of `split` in `Common/Model`, and `tokenize-environment-variable` | round trips for marks; refinement of both splits to a relation that says what the words of a string are, by induction over the rounds of the loops and the rest of the string |
| C159 | `JamSelect/Model`: `jam-expand-arg-bracket` over the model of `string-to-integer` in `IntString/Model`; what modifiers after a colon do is any function | case analysis on what is written in the brackets, with the reading of a number in any context by induction over its digits; the members are specified by their numbers |
| C160 | `JamMods/Model`: `jam-expand-arg-colon`, with what a letter does to one name as any total function, the join loop, the default, and the modifier of marks over `JamNames/Model` | refinement: lists of modifiers are written and given a meaning, by induction over the list; the end of a replacement by induction over its characters |
| C161 | `JamLex/Model`: the lexer of build files in `jam-read` (words, quotes, backslashes, comments, line numbers, strings of actions, table of tokens); the parser that calls it is not modelled | refinement: words are written as lists of parts and read back, by induction over the parts and over the text in quotes; a file of words by induction over the words; strings of actions by induction over balanced text |
| C162 | `JamScope/Model`: blocks with local variables, rules with parameters, loops over lists, assignments of the evaluator and statements run on a target, over statements that are any functions of the variables with an outcome (result, return, break, continue, error) | for every body: what it sees and what is left of its changes, from lemmas on setting lists of variables; loops by induction over the list |
| C15, C18, C19 | `Integer`: tagged 64-bit words as `BitVec 64` | `BitVec.toInt` arithmetic |
| C16 | `Integer`: the LLVM division primitives and the `<integer>` methods on top of them | truncated-division facts transported through `BitVec.toInt`; spec with rational floor/ceiling |
| C20, C36–C39 | `MachineWord`: the C run-time and LLVM primitives on `BitVec 64`/`BitVec 128` | `Int` division lemmas; counterexamples by `decide` |
| C17 | `Integer`: binary gcd loop | invariant `gcd` preserved; termination measure |
| C21 | `HeapTable`: C hash table | probe cycle covers the table (odd stride, power of two); refinement to a map |
| C22, C23, C41 | `Mangle`: the C demangler over byte lists with explicit outcomes for reads, table accesses and writes out of bounds; the mangler and the Dylan demangler; lowercasing of names is outside | counterexamples plus safety under a stated precondition by an invariant of the loop; round trips and unique splitting at separators by induction |
| C24–C28 | `Threads`: each primitive as a sequence of atomic steps; interleaving semantics for any number of threads | inductive invariants over reachable states; counterexample traces |
| C29–C32, C42 | `Types`: inductive type of Dylan types (classes, singletons, unions, limited integers, subclass types, limited collections, limited functions) over an abstract class heterarchy; the methods of each generic function become equations, an inapplicable call is a distinct outcome; limited-integer membership on tagged 64-bit words | induction on the total size of the types, `instance?` seen as `subtype?` of the singleton; counterexamples for unsound corners |
| C33–C35 | `Integer`: comparison, conversion and logical shift on the tagged words | `BitVec.toInt` arithmetic |

Disagreements between code and property that were found are recorded in the last section.

## Disagreements found

Each entry names the theorem that proves the disagreement about the model.

* **C03** the default (unstable) sort reads outside the vector for a `test:` that is not strict (e.g. `<=`):
  `Verif.Sort.default_sort_unsafe_for_nonstrict_test`.
* **C06** the backward iteration protocol of deques starts one slot after the last element, stops before the
  first element and gives slot numbers as keys: `Verif.Deque.backward_iteration_violated`,
  `backward_iteration_wrong_elements`, `backward_iteration_never_correct` (no non-empty deque is ever iterated
  correctly backward).
* **C15** with the C back end out-of-range results are undefined instead of signalled:
  `Verif.Integer.c_back_end_no_overflow_signal`.
* **C16** `round/` uses half the divisor *rounded down* as threshold, so for an odd divisor it can round away
  from the nearest integer; `round/(3, 1)` is 4: `Verif.Integer.round_wrong` (every such pair),
  `round_wrong_examples`.
* **C17** `gcd(0, -4)` is -4, `gcd(-3, -3)` is -3, `gcd($minimum-integer, 6)` overflows; `lcm(0, 0)` divides by
  zero, `lcm(-2, 4)` is -4: `Verif.Integer.gcd_violated`, `lcm_violated`.
* **C18** `-2 ^ 61`, `$minimum-integer ^ 1` and `$minimum-integer ^ 0` signal overflow although the result is
  representable: `Verif.Integer.power_violated`.
* **C19** `ash` with shift `$minimum-integer` overflows; `logbit?` with index 62 or more is undefined;
  `bit-field-extract` past the top bit of a negative number is wrong; `bit-field-deposit` does not mask the field:
  `Verif.Integer.ash_violated`, `logbit_violated`, `bit_field_extract_violated`, `bit_field_deposit_violated`.
* **C20** the C run-time's double-width multiply loses the carry out of the middle sum, its division uses only the
  low halves of the dividend words, and its overflow flags are wrong: `Verif.MachineWord.c_multiply_violated`,
  `c_divide_violated`, `c_multiply_flag_violated`, `c_multiply_with_overflow_violated`.
* **C37** `shift-left-with-overflow` never reports overflow in either back end (`shift_left_flag_violated`);
  negate/abs of the most negative word is undefined in the C run-time (`c_negate_flag_violated`).
* **C38** rotation by 0 is undefined in both back ends, double shifts by 0 in the C run-time: `rotate_violated`,
  `c_double_shift_violated`.
* **C39** the C run-time wraps the unsigned words 2^61 .. 2^62-1 as negative integers: `c_wrap_unsigned_violated`.
* **C24** releasing a simple lock one does not hold clears the owner field before the release fails, so the holder is
  then told it does not own the lock; after waiting for a notification the waiter holds the lock but `owned?` says no:
  `Verif.Threads.SimpleLock.simpleLock_failed_release_violated`, `simpleLock_notification_violated`.
* **C25** `owned?` on a recursive lock answers true to a thread that has released it, while another thread is between
  the count increment and the owner store of its claim: `Verif.Threads.RecursiveLock.recursiveLock_owned_violated`.
* **C26** the POSIX semaphore ignores `maximum-count:`; the emulated one returns `COUNT_EXCEEDED` with its mutex still
  locked, so that nobody can use the semaphore again: `Verif.Threads.Semaphore.posix_maximum_violated`,
  `emulated_wedged_violated`.
* **C27** a refused `join-thread` of several threads returns with the join lock held, so no thread can end or be joined
  any more; a thread listed twice stays marked and can never be joined: `Verif.Threads.Join.join_wedged_violated`,
  `join_repeated_violated`.
* **C28** a thread's end removes and frees its vector of thread variables without the list lock, so a concurrent
  allocation can store into it afterwards: `Verif.Threads.Tlv.tlv_removed_vector_violated`.
* **C10** `make(<range>)` drops the last term when the steps jump over a `below:` or `above:` bound, gives a range of
  negative size when the bound is more than a step before the start, and uses the larger of `to:` and `below:`;
  constant and unbounded ranges answer negative keys; a constant range of size 0 claims a member:
  `Verif.Range.make_violated`, `rejects_negative_violated`, `member_violated`.
* **C11** the intersection of two unbounded descending ranges with different steps ascends: `Verif.Range.intersection_violated`.
* **C12** `remove!` ignores an element in the middle (or signals a type error if a count is given), removes one
  occurrence only from a constant range, and empties a one-element constant range whatever the value; copying from
  the end of a range is an error: `Verif.Range.remove_violated`, `copySequence_violated`.
* **C40** ranges of one element with different steps are not equal: `Verif.Range.equal_violated`.
* **C22** `dylan_demangle` indexes its table with a negative number for bytes above 127 where `char` is signed, reads
  behind the end of a source ending in `K`, and writes one byte behind the destination when the repeated library name
  fills it before a method mark, which the stack walker's 256-byte buffers allow for real method names:
  `Verif.Mangle.demangle_safe_violated_index`, `_read`, `_write`, `stack_walker_violated`.
* **C41** two classes of the same name in two modules of a library give their descriptors of one slot the same linker
  name; the name of a library with an underscore is demangled twice (`a_b` becomes `a-b`) when a method's library is
  read off its name; names with `#` collide: `Verif.Mangle.slot_descriptors_distinct_violated`,
  `method_details_violated`, `link_names_distinct_violated`, `binding_recovered_violated`.
* **C31** `limited(<integer>, min: 5, max: 3)` has instances, all integers `>= 5` or `<= 3`:
  `Verif.Types.limited_integer_instance_violated`, `limited_integer_inverted`.
* **C29** `<class>` is answered to be a subtype of `subclass(<class>)` (the test compares with `<class>` where
  `<object>` is meant); inverted limited integers; dimensions are compared only up to the shorter list:
  `Verif.Types.subtype_sound_violated_subclass`, `_inverted`, `_dimensions`.
* **C30** `subtype?` has no method between a limited integer type, a subclass type and a limited function type, so a
  union of two of these is not even comparable with itself; a limited function type is not a subtype of itself:
  `Verif.Types.subtype_refl_violated_error`, `_function`, `subtype_trans_violated`.
* **C32** a limited collection type is answered to be disjoint from its own class; overlapping limited collection types
  of different class or size, and any two limited function types, are answered to be disjoint:
  `Verif.Types.disjoint_sound_violated_class`, `_collections`, `_function`.
* **C08** a store that fails because the table would become too large (or, by the same path, because the new vector
  cannot be allocated) leaves the table marked as being rehashed; afterwards a lookup of a key that is in the table
  retries for ever (`gethash` waits for a rehash that is not under way): `Verif.Table.table_operations_end_violated`.
  A lookup of an absent key or a removal repairs the table.
* **C09** after the current key of an iteration has been removed and stored again, `current-element` signals an error
  although the key is in the table (`SpecStep.iterElemRemoved`); the property only speaks of unmodified tables.
* **C14** `<object>` is expected at the end of every precedence list: after `make(<class>, superclasses: #[])`, a class
  with `<object>` and that class as superclasses is not a `subclass?` of `<object>`:
  `Verif.Class.subclass_object_violated`.
* **C13** the run-time check for unrelated primary classes passes an implementation class where `subiclass?` wants the
  class (`class-dynamic.dylan:699`), so the intended error may appear as a type error; the model counts both as the
  error for primary classes.
* **C43** `make(<class>, superclasses: vector(<a>, <b>))` at run time does not record `<a>` and `<b>` as joint, so
  `disjoint-types?(<a>, <b>)` answers `#t` although the new class has instances of both:
  `Verif.Class.joint_recorded_violated`.
* **C44** the search for the two conflicting lists only finds conflicts between the heads of two lists.  For three
  superclasses in a circle, or a superclass named twice, it finds none and the compiler evaluates `heads[#f]`:
  `Verif.Class.report_found_violated`, `report_found_violated_twice`.
* **C45** two unrelated superclasses that declare slots with the same getter: the layout of a common subclass ends in
  the internal error "Bug - ran out of space" rather than a report of the conflict
  (`Verif.Slots.shared_getter_report_violated`), or, when one of them is virtual and comes later, in an access outside
  the slot vector by the unchecked `vector-element` (`layout_bounds_violated`); a repeated slot is silently dropped
  (`layout_sound_violated`), and a getter equal to a size getter leaves two words with one offset
  (`offset_sound_violated`).
* **C46** the offset of a repeated slot grows in a subclass, though the compiler takes the instance slots of a primary
  class to have fixed offsets: `Verif.Slots.fixed_offset_repeated_violated`.
* **C48** `required keyword x:` in a subclass is enforced by `default-class-constructor` and not by the constructor the
  compiler writes, which looks at the slot's own `required-init-keyword:` only
  (`Verif.Init.required_keyword_violated`; `durations.dylan:151` is such a class); as the compiler's constructor is used only for classes without class slots,
  adding an unrelated class slot changes the behaviour of `make`. In the class of the slot itself, or for a keyword
  with no slot, it is never enforced (`required_own_keyword_violated`).
  A required slot with an `inherited slot` initial value below is accepted without the keyword by the compiled
  constructor only (`required_initial_violated`). The run-time constructor does not check the types of initial values
  (`initial_type_violated`). A `keyword x: = ...` clause further up cancels `required-init-keyword: x:`
  (`required_default_violated`).
* **C49** the compiler takes a slot to be always initialised because of a `required keyword` that its own constructor
  does not enforce, and then omits the test for the unbound marker: `Verif.Init.guaranteed_violated`.
* **C50** holds. Not errors by the documentation, but shown by executions: any thread can release another's read claim
  (`Verif.Threads.ReadWrite.readWrite_foreign_release`), `owned-for-reading?` answers `#t` to threads that have claimed
  nothing (`readWrite_owned_for_reading`), and the owner deadlocks silently on a second claim
  (`readWrite_self_deadlock`).
* **C52** fails for `subclass(<object>)` and `<class>` (`sort_drops_method_violated`): both methods can be in one generic
  function, both apply to any class, and the sort drops whichever it meets second (`discrimination.dylan:908-914,1160-1172`).
  Comparing a subclass type with a union that has a limited integer in it signals an error (see C30); `Comparable` excludes it.
* **C53** fails in four ways, each shown by a history of calls. (1) For limited types one of which is a subtype of the
  other, `compute-default-subdiscriminator` takes an instance of the supertype for an instance of the subtype
  (`subsumed?` against the list of true types, `discrimination.dylan:516`, has the relation the wrong way round):
  `Verif.Dispatch.nested_limited_violated`. (2) For a singleton beside a limited type, the default of the singleton
  table is absent after a call with the singleton, and the next miss fills it without testing the limited type:
  `singleton_and_limited_violated`. (3) A subclass type inside a union makes the dispatcher ask objects that are not
  classes for their class key: `subclass_in_union_violated`. (4) An accessor of a repeated slot in a primary class
  (C46): `moved_slot_violated`.  `has-instances?` of a limited collection type demands a `<limited-collection>`
  (`dispatch.dylan`), unlike `instance?`; limited collections are excluded.
* **C54** fails in two ways. (1) When a method of another library replaces the first of the methods that belong to the
  library of the generic function, `add-method` records the library but does not store the method
  (`generic-function.dylan:396-402`): `Verif.Dispatch.Gf.replace_dropped_violated`. (2) `remove-method` never empties
  the dispatch cache, so calls go on invoking the removed method: `stale_remove_violated`.
* **C55** `string-to-integer(s, start: s.size, default: d)` signals an error instead of returning the default, unless `s`
  is empty: `Verif.IntString.start_at_end_violated`. `integer-to-string(..., lowercase?: #t)` makes the fill character
  lowercase: `fill_lowercased_violated`.
* **C57** `<date-arithmetic-invalid-day>` may be returned from, and describes that as using the last valid day, but then
  the day rolls over into the next month: `Verif.Date.return_from_condition_violated`. A sum of a date and a duration
  may lie out of the range 1800 to 2199; a further sum then signals an error: `sum_out_of_range_violated`.
* **C58** `canonicalize-duration` does not compare the signs of days and microseconds if there are no seconds, so that
  `=` and `<` are wrong for such durations: `Verif.Date.compare_durations_violated`. The documentation says that `=` and
  `<` on durations ignore the microseconds: `duration_microseconds_violated`. Division rounds days, seconds and
  microseconds one by one, half of a day is no time: `divide_duration_violated`.
* **C59** A fraction of no digits is accepted and one of seven refused: `Verif.Date.fraction_violated`. The lax parser
  accepts spaces elsewhere: `lax_spaces_violated`. `as-iso8601-string` does not convert to Greenwich time and ignores
  `precision:`: `as_iso8601_violated`. `parse-date-string` shifts the fields when it meets `%z`, and applies the sign of
  the zone to the hours only: `parse_zone_violated`, `parse_zone_minutes_violated`. `%B` fails at the end of the text,
  `%T`, `%f`, `%F`, `%a` and `%A` are not read, `%y` reads 70 as 2070, `%F` writes 999.6 milliseconds as 000:
  `parse_month_name_violated`, `parse_ignored_violated`, `parse_short_year_violated`, `format_milliseconds_violated`.
* **C60** A stretchy vector made with a `capacity:` and a `fill:` fills new elements with the fill up to the capacity and
  with `#f` beyond: `Verif.Stretchy.growth_fill_violated`. `add!` checks the type of the element after it has made the
  vector longer: `add_type_violated`. A limited stretchy vector of an element type without its own representation is
  filled with `#f` when it grows: `element_type_violated`.
* **C63** `replace-subsequence!` on a list does not check `start:` and `end:`. With an `end:` beyond the list it answers;
  with a `start:` beyond it, it stores into the tail of the empty list; with `end:` before `start:` it does not return
  (`Verif.Lists.replace_subsequence_bounds_violated`, `replace_subsequence_order_violated`). Without `end:` it replaces as
  many elements as it inserts, where the other sequence classes replace the rest (`replace_subsequence_default_violated`).
  Inserting a list into itself after its first element does not return (`replace_subsequence_self_violated`).
* **C64** A cleanup clause that runs because of an exit, and in which another block is left by a (non-local) exit, makes the
  first exit be forgotten: `nlx_step` clears the pending destination of the current frame, which belongs to the first exit.
  The code after the first block runs and a frame too many is popped (`Verif.Nlx.exit_forgotten_violated`); if it was the
  outermost frame, the next exit follows a null pointer (`exit_forgotten_crash_violated`). A `goto` out of a cleanup clause
  within a cleanup clause leaves the wrong destination pending (`exit_to_wrong_block_violated`), and an exit procedure called
  again while its own exit is under way overwrites the values of the first call (`exit_values_lost_violated`). Nothing checks
  that there are at most 64 values (`too_many_values_violated`).
* **C65** The frame of a block is still the current one while its cleanup clause runs after a body that ended normally. An
  exit in the clause therefore starts the clause again (`Verif.Nlx.cleanup_twice_violated`); if the exit is compiled to a
  `goto`, which `exit-with-intervening-block?` allows, the frame stays on the chain after the block is over
  (`cleanup_stale_frame_violated`).
* **C66** A keyword method called directly accepts unknown keywords; the error function for it is declared in
  `c-run-time.c` (1409) and not used (`Verif.Args.unknown_keyword_violated`). The entry points that buffer their arguments
  do so before they compare the count with the size of the buffer, so more than 256 arguments overwrite what follows it
  (`too_many_arguments_violated`). A method with more than 64 parameters cannot be called (`many_parameters_violated`).
* **C67** `apply` with 65 to 256 arguments stops in `primitive_break` (`Verif.Args.apply_breaks_violated`), with more it
  overflows its buffer (`apply_overflow_violated`).
* **C68** An unknown keyword in a call of a generic function gives a warning, not an error
  (`Verif.Args.gf_unknown_keyword_violated`). `#f` in the place of a keyword is reported as an odd number of keyword
  arguments (`false_keyword_violated`). Where all keywords are allowed, the method itself becomes the engine node and nobody
  checks that the number of keyword arguments is even; the word before the vector's elements is read as a keyword
  (`odd_keywords_violated`). `gf_optional_xep_0` to `_6` do not set the argument count that `key_mep` uses
  (`stale_count_violated`). `primitive_mep_apply_with_optionals` reads 64 words of a shorter vector from ten arguments on
  (`nine_required_violated`).
* **C69** `clear-table-vector!` empties keys and values while the rehash token is still valid, so an `element` that has found
  its key may return `$table-entry-empty` (`Verif.Conc.table_clear_marker_violated`). `remove-all-keys!` does not test that the
  vector it has locked is still the current one, so the clear is lost if the table has been rehashed into a copy since
  (`table_clear_lost_violated`). `needs-rehash?` tests the token before `is-stale?`; a rehash in place between the two tests
  hides that the hash code used for the search is out of date, and `element` reports a key that is in the table as missing
  (`table_rehash_race_violated`).
* **C72, C74** `fill!` on a bit vector computes the mask for a range within one word by `ash(-1, n)` on 62-bit integers, which
  overflows for the last two bits of a word (`Verif.Bits.fill_overflow_violated`); `empty-bit-set!` and `universal-bit-set!`
  therefore fail on sets made for 62 or 63 numbers (`bit_sets_violated`). `fill!` does not check its bounds
  (`fill_bounds_violated`).
* **C73** The bits beyond the size in the last word of a bit vector are arbitrary. The backward iteration visits them
  (`Verif.Bits.backward_violated`: the complement of `all-members-from: 5` yields 63, 62, ...). The forward iteration over an
  infinite set takes them for members, or starts behind them (`forward_infinite_violated`: `all-members-from: 5` yields 64
  first).
* **C76** `force-output` on an output stream moves `buffer-start` to the end of the buffer even if the position is before it. What
  is then written there is not written out (`Verif.Streams.output_stream_violated`: write "123", position 1, force, write "9",
  close leaves "123").
* **C77** Input-output streams with a buffer of B bytes: reading after writing exactly to the end of the buffer fails an assertion
  (`inout_stream_violated`); reading after a write that went on into the next page says end of stream
  (`inout_stream_false_end_violated`: `do-get-input-buffer` loads `end - start` = 0 bytes); `write-element` after reading exactly to
  the end of the buffer stores behind the buffer (`inout_stream_store_violated`); moving within the page a write came into lets
  `read(2)` store behind the buffer (`inout_stream_overrun_violated`); moving past the end adds old bytes of the buffer to the file
  (`inout_stream_past_end_violated`).
* **C78** `read` compares the number of elements read with `on-end-of-stream`, and takes a full read for the end of the stream if
  they are equal (`read_on_end_of_stream_violated`).
* **C79** `force-buffer` moves the start of the shared `$null-buffer`, so that its zero is written once only
  (`past_end_violated`).
* **C80** `stream-position-setter` compares the position, which is counted from `start:`, with `start:` itself, so that positions
  below it (even 0) are refused; `adjust-stream-position` from the end does not subtract `start:`
  (`Verif.SeqStream.sequence_stream_start_violated`). The end cannot be named without `end:` (`sequence_stream_end_violated`).
  Clearing the contents puts the position to 0 instead of `start:`, and keeps the contents when `end:` was given
  (`sequence_stream_clear_violated`). `unread-element` compares the position with 0, and so overwrites the element before the part
  (`sequence_stream_unread_violated`). A position behind the end is accepted without `end:`, and a write there uncovers old elements
  (`sequence_stream_position_violated`).
* **C83** `read-into!` on a sequence stream moves the position, but copies nothing, when fewer elements are left than asked for
  (`read_into_violated`).
* **C85** `simplify-locator` of `/..` keeps the `..` (`Verif.Locators.simplifyDir_complete_absolute_violated`).
* **C86** `relative-path` answers one `..` for every item of the second path after the shared part, also when the item is itself `..`
  or `.`: from `../x` to `y` it answers `../../y` (`relativeDir_place_violated`). A relative locator and an absolute one are compared
  as if both started at the same place (`relativeDir_mixed_violated`). A file locator without a directory is answered unchanged
  (`relativeFile_place_violated`).
* **C88** `locator-directory` of `a/..` is `a`; `locator-name` of it returns the symbol `#"parent"`, which its result type forbids
  (`dirDirectory_place_violated`).
* **C92** `fill-table!` tests the key to see whether it has one: with a key `#f` the pairs that follow are taken apart, so that values
  become keys (`Verif.Common.fill_table_violated`).
* **C94** `subsequence-position` with an empty pattern answers the size of the sequence also for a `count:` greater than the number of
  places where it is found (`Verif.Iter.subsequence_position_violated`).
* **C97** `map-into` a deque from sources iterated by index reads outside of them if the deque is shorter than they are
  (`Verif.Iter.map_into_deque_violated`); a list as target stops with a type error for some sources (`map_into_list_violated`)
  and with a table as source nothing is stored in it (`map_into_table_violated`).
* **C98** An iteration over an unbounded range and two tables without a common key does not end, because the search for a common key
  looks at a state that it does not change (`Verif.Iter.multiple_mixed_violated`).
* **C100** `+` of double integers adds the high words before the carry, so that `(-2^127 + 1) + -1` signals an overflow
  (`Verif.BigInt.plus_violated`); `-` likewise (`minus_violated`).
* **C101** `*`: `-2^64 * 0` signals an overflow and `2^64 * 2^64` is 0 (`times_violated`): only the sign of the product is tested.
* **C102** `truncate/(-3 * 2^64, 2)` is wrong by `2^32`, `truncate/(2^63, -1)` is `2^63`, a divisor above `2^31` can signal an overflow,
  `floor/(0, -2^64)` is -1, `ceiling/(0, 2^64)` is 1, `truncate/(-2^61, 2^61)` is 0, and two double integers cannot be divided
  (`division_violated`).
* **C103** `ash(x, -2^61)` signals an overflow (`ash_violated`).
* **C104** `4 ^ 64` is 0; `(-2) ^ 127` signals an overflow (`power_violated`).
* **C105** The digits of `-5 * 2^64` are those of another number (`number_to_string_violated`); the length of `2^64` is 2
  (`integer_length_violated`).
* **C106** The body of an exception clause is run before the blocks inside are left, so that their cleanup clauses come after it
  (`Verif.Signal.exception_cleanup_violated`; the macro has a comment that says so). These cleanup clauses run with the handlers around
  the exception clause in force instead of those around themselves (`cleanup_handlers_violated`). `next-handler`, called a second time,
  skips the last handlers, because `done-last?` belongs to the signal and not to the search (`next_handler_violated`).
* **C112** `make-hash-literal` sets the start of the line to the position of the newline instead of the one after it: columns after a
  `#:name:` literal with a newline in it are one too large (`Verif.Reader.hash_literal_columns_violated`). If the lexer stops at a newline,
  the location of the `<invalid-token>` ends in the next line, in column -1 (`invalid_location_violated`), and packed this becomes line
  65535, column 4095 (`column_before_line_violated`). A `//` comment in a last line without newline is read as operators and names
  (`last_line_comment_violated`; there is a TODO in the source).
* **C114** `make-range-position` checks that the difference of the columns is not negative, but not that of the lines: a position that ends
  in an earlier line than it starts is packed wrongly (`backward_position_violated`). The lexer and `compute-position-between` do not make such
  positions (`position_between`).
* **C115** In the table the strings for some graphic states contain `_-+` where `-` makes a range that is empty: names like `*-x*` are not
  read as one token (`graphic_names_violated`).
* **C118** The count of quotes is reset when a string token is made, but not when the lexer signals an invalid token: a lexer that is used
  after that loses characters at both ends of the next string (`leftover_quotes_violated`).
* **C120** After the end of an inner comment the next character is never the beginning of `*/` or `/*`: `/* /* a */*/` does not end
  (`nested_comment_violated`).
* **C121** With more than 18 digits before the point the number of digits left out is added to the absolute value of the exponent, also if the
  exponent is negative (`long_mantissa_violated`). The table has `"[0-9]"` where `"0-9"` is meant: `1e]` is a float token, and then `atof`
  fails (`exponent_bracket_violated`). `-.` is a float (`no_digits_violated`). Underscores in fractions are accepted only after an odd number of
  digits (`fraction_underscore_violated`).
* **C122** A clause that excludes and renames the same name hides another name: with `exclude: { a }, rename: { a => b }`, `b` counts as
  imported, but is not found (`Verif.Names.excluded_rename_violated`). Prefixes are compared with case, on the spelling that a symbol was first
  read with: with `prefix: "foo/"` a `foo/bar` first read as `FOO/bar` is not found (`prefix_case_violated`).
* **C123** The warning about a name imported from two modules says that the first will be used. If both pass the name on, this is so only until
  another module uses this one: `make-exported-imports-table` takes the last, and `lookup-name` then prefers its table
  (`clash_history_violated`). A rename of a name that is not exported is not warned about (`<imported-names-not-exported>` is defined, but never
  signalled), and hides a name that is exported under the new name (`missing_rename_violated`).
* **C125** `walk` marks a namespace visited after those it uses. If two modules use one another, the definition only warns that one of them is
  not defined yet, but `all-used-namespaces`, which follows the clauses, recurs without end (`mutual_use_violated`).
* **C126** A backslash before the closing delimiter of a `#:name:` literal makes it part of the data, also if that backslash is itself
  escaped: data that ends in a backslash cannot be written with delimiters, and the literal swallows what follows
  (`Verif.Reader.backslash_end_violated`).
* **C127** `format` of io takes `#f` for arguments that are missing (`Verif.Format.missing_argument_violated`), counts a minus sign within a
  field as the digit -3 (`minus_in_field_violated`), takes `%0d` for an unknown directive (`zero_field_violated`) and ignores the radix
  for integers that are not `<integer>`s (`big_radix_violated`).
* **C128** `%x` gives lower case letters in io, as its documentation says, and upper case letters in common-dylan, whose documentation calls it a
  subset of io (`Verif.Format.x_case_violated`).
* **C130** A negative `length:` hides all elements of a list but none of a vector, because one loop compares with `>=` and the other with `=`
  (`Verif.Print.negative_length_violated`).
* **C131** The first pass of circular printing does not look inside lists and vectors, because `pprint-logical-block` does not run its body in
  it. So the object printed is never tagged, and one that is its own element, head or tail is printed without end
  (`Verif.Print.circle_ends_iff`, `self_vector_violated`); every other object is tagged even if it occurs once; and the second element of a list
  is lost: `list(1, 2)` and `list(1, 3)` are both printed as `#(#0#=1, . #1#=#1#)` (`lists_alike_violated`).
* **C132** (a) A spliced pattern variable such as `"a" ## ?x ## "a"` given the name `a` makes the compiler fail with a range error instead of
  trying the next rule, because prefix and suffix overlap (`Verif.Macro.overlapping_splice_violated`). (b) `?x:name` also matches an operator, because
  operator fragments are name fragments (`name_constraint_violated`). (c) A string literal in a pattern never matches, because literals are compared
  with `==` (`string_literal_violated`). (d) The constraint of a `#key` variable is never checked (`key_constraint_violated`).
* **C133** A separator before `??x ...` is kept when auxiliary rules have rewritten every element to nothing, so `{ a, ??x ... }` gives `a,`
  (`Verif.Macro.separator_left_violated`; the code has a TODO about it).
* **C134** `?e:expression` given one operator and nothing else takes it as an expression without asking the parser, because operator fragments are
  name fragments (`Verif.Macro.lone_operator_violated`).
* **C135** Double floats are `==` by value, but `object-hash` has no method for them, so they are hashed by address: a value stored in an object
  table under 1.5d0 is not found under another 1.5d0 (`Verif.Hash.object_hash_violated`, `Verif.Hash.object_table_violated`).  The single floats
  0.0 and -0.0 are `==` and have different hash codes (`Verif.Hash.object_hash_zero_violated`).  `collection-hash` with `ordered: #t` gives equal
  collections different codes (`Verif.Hash.collection_hash_ordered_violated`).
* **C136** The declared type of a numeric variable is ignored when the start and the increment are constant integers:
  `for (i :: <string> from 0 to 1)` runs (`Verif.Loops.declared_type_violated`).  `for () ... end` never executes its body and ends at once, where
  the manual has it loop forever (`Verif.Loops.empty_header_violated`).  The type of a next value is checked before the next values of later
  clauses are computed; the manual computes all of them first (`Verif.Loops.check_order_violated`).  The types of `keyed-by` and `set-by`
  variables are dropped by the conversion (not in the model: its clauses have no such types).
* **C137** `make(<array>, dimensions: #())` allocates no element, but `aref` of it with no subscripts reads, and `aref-setter` writes, the word
  after its (empty) storage without a check (`Verif.Arrays.no_dimensions_violated`); its `size` is 0 where the manual has 1.  `make` accepts negative dimensions
  with a positive product, and `element-range-check` compares with them as unsigned words, so that `aref` leaves the storage
  (`Verif.Arrays.negative_dimensions_violated`).  `shallow-copy` of an empty array passes the generic function `dimensions` as the dimensions and fails
  (`Verif.Arrays.empty_copy_violated`).  `row-major-index` of a vector accepts any subscript (`Verif.Arrays.vector_index_violated`).
- **C139** After `constant-fold-if` the last computation of the kept branch is followed by what stood after the merge
  (optimization/constant-folding.dylan 39-44), so the walk over that branch, which would end at the merge
  (optimization/cse.dylan 118, 166, 170), goes on over all the code after it, in the state of the branch.  If the `if`
  stands in a branch of another one with the same test, code after the outer `if` is replaced by temporaries that only
  that branch computes (`folded_if_violated`).
- **C139** `parse-primitive-adjectives` takes a primitive for stateless unless it says `stateful`
  (definitions/define-primitive.dylan 48), and many primitives that read or write memory do not say so, among them all of
  `define &raw-type-accessors` (modeling/raw-type-macros.dylan 60-70), `primitive-element`, the C bit fields and the
  setters that say `side-effecting stateless`.  So reading through a pointer, writing and reading again gives the old value
  (`read_again_violated`), and writing 1, 2 and 1 again leaves 2 (`written_again_violated`).
- **C139** `primitive-vector` says `stateless`, so two new vectors with the same elements become one object
  (`fresh_object_violated`).
- **C140** `primitive-machine-word-subtract-signal-overflow` is folded on operands without their signs
  (modeling/machine-word-primitives.dylan 321-324: `overflow` but not `sign-extend`).  With operands of different signs
  it is folded just where it overflows (`subtract_opposite_violated`): `so%-($minimum-signed-machine-word, 1)` becomes
  `$maximum-signed-machine-word`, and the words that `$minimum-integer - 1` is inlined to become the tagged
  `$maximum-integer`, although the comment in lines 314-316 says that an overflow abandons the folding.
- **C140** The folders for the quotients and remainders of `floor/`, `ceiling/`, `round/` and `truncate/`
  (machine-word-primitives.dylan 227-279) take their operands without signs too, so that -2 by 2 is 9223372036854775807
  (`floor_folded_violated`).  No exported function calls these primitives at present.
- **C141** `obsolete-right-shifted-logand?` (optimization/calls.dylan 756-759) drops a mask before a shift to the right when
  the mask has ones in the places that are shifted out, not in those that remain.  So `%shift-right(%logand(w, #xFF), 4)`
  becomes `%shift-right(w, 4)`; whatever the mask, unless it is -1, the result is wrong for some word
  (`masked_shift_violated`).  The words of `<integer>`s have ones in the lowest place, so `ash(logand(i, m), -1)`, once
  inlined, comes under the rule for each constant `m`.
- **C141** The optimizer of `primitive-machine-word-subtract-signal-overflow` (calls.dylan 835-839) treats zero as neutral on
  the left too, and `so%-(0, w)` becomes `w` (`zero_minus_violated`).
- **C141** The rule for tags of shifted values (calls.dylan 650-654) does not ask that the tag be positive
  (`negative_tag_violated`).
- **C141** A shift to the left that signals overflow, followed by one to the right, is dropped (calls.dylan 847-870), and the
  error with it (`shifted_overflow_violated`).
- **C142** `string-to-machine-word` returns zero for a string of blanks (common-dylan/format.dylan 546-562: the loop ends
  at `stop` without a digit), for which `string-to-integer` signals an error, and drops the digits that do not fit in a word
  (`blank_violated`, `overflow_violated`).
- **C143** `remove-property!` of a vector removes all properties with the indicator and returns the value of the last one
  (collections/plists.dylan 201-253), where `get-property` returned that of the first (`removed_value_violated`).  Of a list it
  removes only the first one (174-199), so that `get-property` afterwards returns the value of the second
  (`list_after_remove_violated`).  With indicators that occur once both do what the documentation says.
- **C144** The generator fills its vector with numbers of 29 bits, and one word with all bits set (common-dylan/random.dylan
  27-34); integers have 61 bits and a sign, so that bits 29 to 60 of all its numbers are the same.  `random(2 ^ k)` with `k`
  above 30 only ever returns the 2^29 least and the 2^29 greatest numbers of the range (`large_range_violated`).  Seeds that
  differ by multiples of 32768, or in sign, give the same numbers (`same_seed`), and `$minimum-integer` is refused
  (`least_seed_violated`).
- **C145** literals in the definition of an abbreviation are written with eight fixed bits (bitcode.dylan 389-394), where the
  format has a vbr8: from 128 on the reader takes the bits that follow for a part of it (`literal_violated`).  The id of an
  abbreviation is computed from the number of names (424), so after a name has been defined twice in a block all later ids are
  too small (`redefinition_violated`).  `write-record` counts the elements of a sequence only if it is the last operand
  (460-466), but writes those of all sequences (`sequence_violated`).  The least double integer is written as minus zero
  (`signed_least_violated`).
- **C146** in a set like `[a-]` the hyphen before the bracket that closes takes the bracket as the end of a range
  (jam-glob.dylan 54-59), so the pattern is refused, or ends at a later bracket (`last_dash_violated`); in other programs the
  hyphen stands for itself there.
- **C147** if `Module:` has continuation lines, then all but the first string are ignored (flat-file-source-records.dylan 233),
  where several languages are refused (249-253) (`module_lines_violated`).
- **C148** on Unix `tokenize-command-line` takes an apostrophe between quotation marks, or a quotation mark between apostrophes, as
  the beginning of another quotation that replaces the first (unix-common-extensions.dylan 127-128): `"it's" two` is the single
  token `its two` (`unix_apostrophe_violated`).
- **C148** neither `quote-argument` quotes a newline, which both tokenizers take as white space (`win_newline_violated`,
  `unix_newline_violated`).
- **C149** the Unix `quote-argument` (jam-quote-unix.dylan 25-26) leaves `*`, `?`, `[`, newline and a first `#` or `~` unquoted
  (`shell_violated`); section 2.2 of the standard that it cites lists them as characters that may need quotes.
- **C149** the Windows `quote-argument` does not look at the character after backslashes (jam-quote-win32.dylan 50-51): `dir\&del`
  is not quoted (`win_operator_violated`).
- **C150** `thread-pool-add` wakes up a worker only if the queue is empty (thread-pool.dylan 73-75): if two tasks are added before
  the worker woken for the first has run, then another worker sleeps on although a task waits (`idle_violated`).
- **C151** `thread-pool-stop` calls `apply(join-thread, threads)` (thread-pool.dylan 63), which returns when *one* of the threads has
  ended: it returns while tasks are running, and a pool that is started again runs more tasks than its size (`stop_violated`,
  `limit_violated`).  After a command that failed, a build returns, and deletes temporary files, while other commands still run.
- **C153** when a command of `actions ignore` fails, `complete-command` passes its status on to a placeholder that waits for it
  (jam-target-build.dylan 461); the placeholder is not ignored and has no command string, so that making the message (443-444) is an
  error, and the build does not succeed (`ignored_violated`).
- **C153** targets that depend on one another in a circle are signalled while they are bound (209-211), but a signal that is not
  handled goes on; the commands then wait for one another, and the build for ever (`circle_violated`).
- **C154** `bind-aux` passes the date of the newest dependency on only through targets that have a date of their own
  (jam-target-build.dylan 196-199).  A target that is not a file has none, so that a program is not built when it depends, by way
  of such a target, on a file that is newer but was not built in this run (`pseudo_violated`).
- **C154** a target gets the status `nomake` when any of its dependencies is missing, out of date or not to be found (150-151), and
  `expand` runs the actions of every target with the status `touched` or above (227): what depends on a file that cannot be found is
  built all the same (`not_found_violated`).
- **C155** `append!` makes the two lists share pairs (t-lists.dylan 129-141): pushing to the end of the first one then changes the
  second one, whose pointer to the last pair is stale, so that its own next element is put before the one of the first list
  (`appended_violated`).  A list that is appended to itself has no end (`append_self_violated`).
- **C155** `element` and `element-setter` with an index of three or more take the list to be long enough when the count is zero,
  without looking whether the iteration is finished (297, 317): for the index just behind the end they read and write the head of
  `#()` instead of making an error or using `default:` (`behind_end_violated`).
- **C156** `cl-remove!` (cl-sequences.dylan 341-378) sets the size to the number of elements kept before the end, so that the elements
  after it are lost (`remove_end_violated`); it lowers the count for elements that are kept (`remove_count_violated`); and from the end
  it overwrites elements before they are read (`remove_from_end_violated`).  A comment in the code says that it is not correct.
- C159: a range that runs backwards by more than one (`$(x[3-1])`) makes `jam-expand-arg-bracket` call `copy-sequence` with an end before the start, an error, while `$(x[2-1])` selects nothing (`JamSelect.select_backwards_violated`).
- C159: `$(x[)` of a variable without value reads element 0 of an empty sequence, and `$(x[1-)` calls `string-to-integer` with a start at the end of the string, which its assertion rejects; both signal errors, while `$(x[2)` is read as if it was closed (`JamSelect.select_open_violated`).
- C160: a modifier without a replacement cannot be followed by a colon and another modifier: in `$(x:U:L)` the second colon is taken for the letter of a modifier and `jam-expand-arg-colon` signals an error for an unknown modifier, while after a replacement a colon is required (`JamMods.colon_between_violated`).
- C160: modifiers after `E`, `J` or `@` are ignored without notice, even unknown ones (`JamMods.colon_default_stops`).
- C161: a word that ends with a quote at the very end of a build file (no blank after it) is lost: the lexer compares `start` with the end before it looks at what it has accumulated, and returns the end of the file (`JamLex.quoted_end_violated`). The same happens to a word before a backslash at the end, and a quote opened by the last character is not reported as unterminated (`JamLex.open_end_violated`).
- C161: the end of a line after a backslash is not counted, so that later line numbers in error messages are too small (`JamLex.escaped_line_violated`).
- C162: a statement that is run on a target and assigns to a variable on that same target (`on t { X on t = new ; }`) has no effect if the variable was set there before: at the end the value of the plain variable is written over it (`jam-target.dylan:179-182`, `JamScope.on_assignment_violated`).
