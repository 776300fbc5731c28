{"id": "C01", "title": "Stable sort is a stable sorting permutation", "statement": "sort!(vector, test:, stable: #t) terminates and leaves a permutation of the old elements which is sorted by test and keeps elements that are equivalent under test in their original relative order; the sort of a subrange leaves every position outside it unchanged.", "quantifier": "every vector, every valid start/end pair, every test that is a strict weak order", "why_tests_cant": "correctness must hold for sequences of every length and every comparison; the algorithm switches between insertion and merge at a size threshold so small samples exercise only one branch", "anchors": ["sources/dylan/sort.dylan: sort!, merge-sort!, insertion-sort!, primitive-merge!"]}
{"id": "C02", "title": "Default sort is a sorting permutation and terminates", "statement": "sort!(vector, test:) without stable: terminates and leaves a permutation of the old elements sorted by test; the sort of a subrange leaves positions outside it unchanged.", "quantifier": "every vector, every valid start/end, every strict weak order", "why_tests_cant": "quick-sort partitioning has data dependent scan loops without bounds checks; termination and sortedness depend on every possible arrangement of keys", "anchors": ["sources/dylan/sort.dylan: quick-sort!, partition!, median-of-three, sort!"]}
{"id": "C03", "title": "Sorting never touches memory outside the vector", "statement": "While sort! runs, every element read or written lies in the vector, and it terminates with a permutation, whatever the test function answers.", "quantifier": "every vector, every test function (also inconsistent ones)", "why_tests_cant": "partition! is compiled without bounds checks, so an out of range scan silently reads foreign memory; only a universally quantified argument excludes it", "anchors": ["sources/dylan/sort.dylan: partition!, median-of-three, quick-sort!"]}
{"id": "C04", "title": "A deque behaves as a double-ended sequence", "statement": "After any history of push, push-last, pop, pop-last, element, element-setter and size on a deque, every result is the one the same history gives on a mathematical finite sequence; popping an empty deque and reading outside the bounds signal an error and change nothing.", "quantifier": "every history of operations, any length, any elements", "why_tests_cant": "the representation moves and grows its backing store depending on the whole history of operations", "anchors": ["sources/dylan/deque.dylan: <object-deque>, push, push-last, pop, pop-last, element, element-setter, grow!, make-room-at-first!, make-room-at-last!"]}
{"id": "C05", "title": "Deque resizing, removal and reversal keep the sequence", "statement": "size-setter truncates or pads with the fill, remove! deletes exactly the requested number of leftmost (or all) matches keeping the order of the rest, and reverse! reverses, on the sequence a deque denotes.", "quantifier": "every reachable deque state, every count/value/test", "why_tests_cant": "must hold from every reachable internal layout (offset, slack at each end), which tests sample only thinly", "anchors": ["sources/dylan/deque.dylan: size-setter, remove!, reverse!"]}
{"id": "C06", "title": "Deque iteration visits every element exactly once in order", "statement": "The forward iteration protocol yields exactly elements 0..size-1 in order with keys 0..size-1; the backward protocol yields exactly the reverse with the same keys.", "quantifier": "every reachable deque state", "why_tests_cant": "depends on the internal offset that results from the whole history", "anchors": ["sources/dylan/deque.dylan: forward-iteration-protocol, backward-iteration-protocol"]}
{"id": "C07", "title": "A hash table behaves as a finite map", "statement": "After any history of element, element-setter, remove-key! and remove-all-keys! on a table, interleaved with any collector events that change address-based hashes, each lookup returns the value most recently stored under an equal key and not since removed, and size is the number of such keys.", "quantifier": "every history, every hash function consistent with the key test, every placement of hash-invalidating collections", "why_tests_cant": "open addressing with deletion marks, growth and in-place rehashing has an unbounded state space; collisions and rehash points depend on the whole history", "anchors": ["sources/dylan/table.dylan: gethash, puthash, remove-key!, remove-all-keys!, rehash-table, rehash-in-place, rehash-into-copy"]}
{"id": "C08", "title": "Hash table probing always terminates", "statement": "Every lookup, insertion and removal on a table terminates: in every reachable table each probe sequence meets the key or an empty slot.", "quantifier": "every reachable table, every hash value", "why_tests_cant": "non-termination shows up only for particular fill patterns and strides", "anchors": ["sources/dylan/table.dylan: do-search, secondary-strides, compute-entry-count, additions-limit"]}
{"id": "C09", "title": "Table iteration yields each present key exactly once", "statement": "Iterating over a table with no concurrent modification visits each present key exactly once with its current value, and nothing else.", "quantifier": "every reachable table", "why_tests_cant": "depends on the layout of empty/deleted/present slots produced by the history", "anchors": ["sources/dylan/table.dylan: forward-iteration-protocol, next-state, finished-state?"]}
{"id": "C10", "title": "Ranges denote the arithmetic progression they were created with", "statement": "For make(<range>, from:, by:, to:/below:/above:/size:), element k is from + k*by for each k below the size, size counts exactly the terms within the bound, an out-of-range (including negative) key is an error, and member? answers whether some element equals the value.", "quantifier": "all integer from/by/bounds/sizes and keys", "why_tests_cant": "arithmetic with sign and divisibility corner cases over all integers", "anchors": ["sources/dylan/range.dylan: make, element, size, member?, find-key-for-element"]}
{"id": "C11", "title": "Range intersection is set intersection", "statement": "intersection(r1, r2) of two integer ranges contains exactly the integers that are in both.", "quantifier": "all pairs of integer ranges", "why_tests_cant": "number theoretic (gcd/lcm) reasoning over all integers", "anchors": ["sources/dylan/range.dylan: intersection, first-intersection, ordered-finite-intersection, last-of-in"]}
{"id": "C12", "title": "Range add!, remove!, reverse! and copy-sequence agree with sequences", "statement": "On a range, reverse! and copy-sequence give the reversed and the selected elements, and remove! gives the elements without the removed value.", "quantifier": "all finite ranges and arguments", "why_tests_cant": "infinitely many ranges; special-cased by position of the removed element", "anchors": ["sources/dylan/range.dylan: remove!, reverse!, copy-sequence"]}
{"id": "C13", "title": "Class linearization is consistent and complete", "statement": "When a class is created, its precedence list starts with the class, lists each superclass exactly once, keeps the order of the direct superclass list, and keeps the order of each direct superclass's own precedence list; an error is signalled exactly when no such order exists for the algorithm's constraints.", "quantifier": "every finite class heterarchy", "why_tests_cant": "the number of class graphs is unbounded, and inconsistency appears only in intricate multiple inheritance", "anchors": ["sources/dylan/class-dynamic.dylan: compute-implementation-class-precedence-list"]}
{"id": "C14", "title": "Fast instance?/subclass? agrees with the class graph", "statement": "subclass?(a, b) by the position-vector test answers #t exactly when b is in a's precedence list, after any sequence of class definitions and at every class nesting.", "quantifier": "every sequence of class definitions", "why_tests_cant": "the cached positions are augmented incrementally by later class definitions", "anchors": ["sources/dylan/class.dylan: rcpl-isubclass?, augment-iclass-rcpl-position-data, class-instance?-rcpl-single-small", "sources/dylan/class-dynamic.dylan: compute-cpl-rcpl-stuff, augment-superior-rcpls"]}
{"id": "C15", "title": "Integer arithmetic is exact or signals overflow", "statement": "+, -, *, negative and abs on <integer> return the mathematically exact result when it is representable and signal an arithmetic overflow error otherwise; never a wrapped value.", "quantifier": "all pairs of representable integers", "why_tests_cant": "2^124 operand pairs; tagging tricks make boundary behaviour subtle", "anchors": ["sources/dylan/integer.dylan: +, -, *, negative, abs"]}
{"id": "C16", "title": "Integer division functions satisfy their defining equations", "statement": "floor/, ceiling/, round/ and truncate/ return q and r with x = q*y + r, where q is the floor, ceiling, nearest (ties to even) and truncation of the exact quotient.", "quantifier": "all x and nonzero y (excluding the single overflowing pair)", "why_tests_cant": "rounding rules by sign and parity over a 2^124 domain", "anchors": ["sources/lib/run-time/c-primitives-math.c: primitive_machine_word_floorS_quotient.., roundS", "sources/dylan/integer.dylan: floor/, ceiling/, round/, truncate/"]}
{"id": "C17", "title": "gcd and lcm compute the greatest common divisor and least common multiple", "statement": "gcd(a, b) is the nonnegative greatest common divisor of a and b and lcm(a, b) the nonnegative least common multiple.", "quantifier": "all pairs of integers, including zero and negatives", "why_tests_cant": "binary gcd loops over all integers; zero/negative corner cases", "anchors": ["sources/dylan/integer.dylan: gcd, lcm"]}
{"id": "C18", "title": "Exponentiation is exact or signals overflow", "statement": "base ^ power with nonnegative power returns exactly the power when it is representable, and signals overflow otherwise.", "quantifier": "all integer bases and nonnegative powers", "why_tests_cant": "square-and-multiply may overflow in an intermediate value although the result is representable", "anchors": ["sources/dylan/integer.dylan: ^"]}
{"id": "C19", "title": "Bit operations agree with two's complement", "statement": "logand, logior, logxor, lognot, logbit?, bit-field-extract, bit-field-deposit and ash on integers have the value given by the infinite two's complement representation.", "quantifier": "all integers and all shift counts and field positions", "why_tests_cant": "implemented on tagged words, where the tag bits must be preserved for every operand", "anchors": ["sources/dylan/integer.dylan: logior, logand, logxor, lognot, logbit?, ash, bit-field-extract, bit-field-deposit"]}
{"id": "C20", "title": "Double-width machine word primitives are exact", "statement": "The C run-time multiply primitives return the high and low word of the exact product, and the divide primitives the exact quotient and remainder of a double word by a word; the overflow variants report exactly when the product is not representable.", "quantifier": "all 64-bit operands", "why_tests_cant": "2^128 operand pairs; lost carries show only for particular halves", "anchors": ["sources/lib/run-time/c-primitives-math.c: multiply_double, divide_double, multiply_low_with_overflow, add/subtract with overflow"]}
{"id": "C21", "title": "The profiler's C hash table behaves as a finite map", "statement": "After any history of table_define, table_redefine, table_lookup, table_remove the results are those of a finite map from keys to values; define fails exactly if the key is present, redefine/remove fail exactly if it is absent; table_count is the number of keys; growth never loses an entry and its internal assertion never fires.", "quantifier": "every history, any initial power-of-two length, any keys", "why_tests_cant": "unbounded histories, deletion marks and growth", "anchors": ["sources/lib/run-time/heap-table.c: table_find, table_grow, table_define, table_redefine, table_remove, table_lookup"]}
{"id": "C22", "title": "Demangling is memory safe", "statement": "dylan_demangle never reads outside the NUL-terminated source or the lookup tables and never writes outside the destsize bytes of the destination, which it leaves NUL-terminated.", "quantifier": "every source string and every destination size", "why_tests_cant": "buffer overruns occur only for particular combinations of lengths and markers", "anchors": ["sources/lib/run-time/demangle.c: dylan_demangle"]}
{"id": "C23", "title": "Demangling inverts mangling", "statement": "For every Dylan name, demangling its mangled form gives back the name.", "quantifier": "every name over the Dylan identifier characters", "why_tests_cant": "names are unbounded strings; injectivity of the escape scheme is a universal property", "anchors": ["sources/lib/run-time/demangle.c: dylan_demangle, demangle_map", "sources/dfmc/mangling/mangling.dylan: mangle-name-into, mangler-table"]}
{"id": "C24", "title": "Simple locks give mutual exclusion and truthful ownership", "statement": "At any time at most one thread holds a simple lock; owned?(lock) answers #t exactly for the holder; an erroneous release by a non-holder signals an error and has no other effect; after waiting on a notification the thread holds the lock again and owned? says so.", "quantifier": "every number of threads, every interleaving of claim/release/owned?/wait/release-all calls", "why_tests_cant": "schedules are unbounded; the ownership word is updated outside the mutex", "anchors": ["sources/lib/run-time/posix-threads.c: primitive_wait_for_simple_lock, primitive_release_simple_lock, primitive_owned_simple_lock, primitive_wait_for_notification"]}
{"id": "C25", "title": "Recursive locks nest correctly", "statement": "A thread that claimed a recursive lock n times must release it n times before another thread can claim it; owned? answers #t exactly while the calling thread holds it.", "quantifier": "every interleaving of any number of threads", "why_tests_cant": "the recursion count is updated after the mutex is released, so only particular interleavings show a wrong answer", "anchors": ["sources/lib/run-time/posix-threads.c: primitive_wait_for_recursive_lock, primitive_release_recursive_lock, primitive_owned_recursive_lock"]}
{"id": "C26", "title": "Semaphores count exactly and stay usable after errors", "statement": "The number of successful waits never exceeds the initial count plus successful releases; a release beyond the maximum count signals an error and leaves the semaphore usable.", "quantifier": "every interleaving and every history", "why_tests_cant": "error path leaves internal state that matters only to later operations", "anchors": ["sources/lib/run-time/posix-threads.c: primitive_wait_for_semaphore, primitive_release_semaphore"]}
{"id": "C27", "title": "Thread join is exactly-once and never wedges", "statement": "Each thread is joined successfully at most once; a duplicate join signals an error; after any join or failed join other threads can still be joined.", "quantifier": "every interleaving of thread completion, single joins and multiple joins", "why_tests_cant": "error paths inside a lock; depends on schedule", "anchors": ["sources/lib/run-time/posix-threads.c: primitive_thread_join_single, primitive_thread_join_multiple, trampoline"]}
{"id": "C28", "title": "Growing the thread-variable vectors never loses a write", "statement": "A write to a thread variable is visible to later reads by the same thread, also when another thread allocates new thread variables at the same time and all vectors are being moved.", "quantifier": "every interleaving of writers and growers", "why_tests_cant": "lost update needs a particular interleaving of a lock-free counter protocol", "anchors": ["sources/lib/run-time/posix-threads.c: grow_all_tlv_vectors, primitive_write_thread_variable, primitive_allocate_thread_variable, tlv_writer_counter"]}
{"id": "C29", "title": "subtype? is sound with respect to instance?", "statement": "If subtype?(t1, t2) then every instance of t1 is an instance of t2, for types built from classes, limited integers, singletons, subclass types and unions.", "quantifier": "all types of unbounded nesting and all objects", "why_tests_cant": "types nest arbitrarily and the claim quantifies over all objects", "anchors": ["sources/dylan/type.dylan: subtype?", "sources/dylan/union.dylan", "sources/dylan/limited-integer.dylan", "sources/dylan/singleton.dylan", "sources/dylan/subclass.dylan"]}
{"id": "C30", "title": "subtype? is a preorder", "statement": "subtype? is reflexive and transitive on types built from classes, limited integers, singletons, subclass types and unions.", "quantifier": "all triples of types of unbounded nesting", "why_tests_cant": "unbounded nesting; method selection by type pair yields many cases", "anchors": ["sources/dylan/union.dylan: subtype?", "sources/dylan/limited-integer.dylan: subtype?", "sources/dylan/singleton.dylan: subtype?", "sources/dylan/subclass.dylan: subtype?"]}
{"id": "C31", "title": "Limited integer membership is the interval test", "statement": "instance?(i, limited(<integer>, min:, max:)) is #t exactly when i is an integer with min <= i <= max.", "quantifier": "all integers and all bounds", "why_tests_cant": "uses one unsigned comparison of tagged words; wraparound must be excluded for all values", "anchors": ["sources/dylan/limited-integer.dylan: min+max-limited-integer-instance?-function and siblings"]}
{"id": "C32", "title": "disjoint types share no instance", "statement": "If disjoint-types?(t1, t2) answers #t then no object is an instance of both.", "quantifier": "all pairs of types and all objects", "why_tests_cant": "quantifies over all objects and unbounded nesting", "anchors": ["sources/dylan/type.dylan: disjoint-types-1?", "sources/dylan/union.dylan: disjoint-types?", "sources/dylan/limited-integer.dylan", "sources/dylan/singleton.dylan", "sources/dylan/class.dylan"]}
{"id": "C33", "title": "Integer comparison is exact", "statement": "For all integers a and b, a < b and a = b answer true exactly when the mathematical values compare so; no pair of representable integers is misordered by the tagged representation.", "quantifier": "every pair of representable integers", "why_tests_cant": "2^124 pairs; tests sample a few", "anchors": ["sources/dylan/integer.dylan: \\<, \\=", "sources/dylan/conversion-tagged-integer.dylan"]}
{"id": "C34", "title": "Conversion between machine words and integers is exact", "statement": "as(<integer>, word) returns the integer with the word's signed value or signals overflow if there is none; machine-word-is-integer? answers true exactly when that conversion succeeds; converting the integer back gives the same word.", "quantifier": "every 64-bit word", "why_tests_cant": "2^64 words", "anchors": ["sources/dylan/conversion-tagged-integer.dylan: coerce-machine-word-to-integer, coerce-integer-to-machine-word, machine-word-is-integer?"]}
{"id": "C35", "title": "lsh is the logical shift of the 62-bit pattern", "statement": "lsh(x, n) shifts the two's-complement pattern of an integer, filling with zeros and dropping bits that leave the word, and never signals an error, for every x and n.", "quantifier": "every integer and every shift count", "why_tests_cant": "the space of pairs is 2^124", "anchors": ["sources/dylan/integer.dylan: lsh, lsh-left, lsh-right"]}
{"id": "C36", "title": "Double-width multiplication and division of the LLVM back end are exact", "statement": "The two result words of multiply-low/high and unsigned-multiply denote the exact product; the double-word truncate, floor, ceiling and unsigned divisions return the exact quotient and remainder whenever the quotient fits in a word.", "quantifier": "all 64-bit operand words (and pairs of words as dividends)", "why_tests_cant": "2^128 and 2^192 operand combinations", "anchors": ["sources/dfmc/llvm-back-end/llvm-primitives-machine-word.dylan: primitive-machine-word-multiply-low/high, unsigned-multiply, double-divide, double-floor/, double-ceiling/, unsigned-double-divide"]}
{"id": "C37", "title": "Machine-word overflow, carry and borrow results are exact", "statement": "The with-overflow machine-word functions return true exactly when the signed result is not representable, and the carry/borrow results complete the word result to the exact sum or difference.", "quantifier": "all pairs of 64-bit words", "why_tests_cant": "2^128 operand pairs", "anchors": ["sources/lib/run-time/c-primitives-math.c: add_with_overflow, subtract_with_overflow, unsigned_add_with_carry, unsigned_subtract_with_borrow, shift_left_with_overflow", "sources/dfmc/llvm-back-end/llvm-primitives-machine-word.dylan: shift-left-with-overflow"]}
{"id": "C38", "title": "Machine-word rotations and double-width shifts are exact", "statement": "rotate-left/right rotate the 64-bit pattern by any count below 64, and the double-word shifts multiply or divide the 128-bit value by the power of two, for every count below the width.", "quantifier": "all words, pairs of words and counts", "why_tests_cant": "2^70 and 2^135 combinations; the count 0 is easily forgotten", "anchors": ["sources/lib/run-time/c-primitives-math.c: unsigned_rotate_left/right, unsigned_double_shift_left/right", "sources/dfmc/llvm-back-end/llvm-primitives-machine-word.dylan: unsigned-rotate-left/right, unsigned-double-shift-left/right"]}
{"id": "C39", "title": "Wrapping a machine word as an abstract integer preserves its value", "statement": "The integer object made from a machine word has the word's signed (respectively unsigned) value, as a tagged integer if it fits and as a double integer otherwise.", "quantifier": "every 64-bit word", "why_tests_cant": "2^64 words with two range boundaries", "anchors": ["sources/lib/run-time/c-primitives-math.c: primitive_wrap_abstract_integer, primitive_wrap_unsigned_abstract_integer", "sources/dfmc/llvm-back-end/llvm-primitives-machine-word.dylan: primitive-wrap-abstract-integer, primitive-wrap-unsigned-abstract-integer"]}
{"id": "C40", "title": "Iterating over and comparing ranges agrees with their elements", "statement": "for over a range visits exactly its elements in order and stops after the last (never, for an unbounded one); backward iteration visits them in reverse; the current key is the key of the current element; two ranges are = exactly when they have the same elements in the same order.", "quantifier": "every range, finite or unbounded, ascending or descending", "why_tests_cant": "the loops compare states with a computed limit; tests run a few sizes and steps", "anchors": ["sources/dylan/range.dylan: forward-iteration-protocol, backward-iteration-protocol, \\="]}
{"id": "C41", "title": "Linker names of distinct objects are distinct, and can be taken apart", "statement": "Different constants, variables, methods, local methods, domains, class wrappers, slot descriptors, symbols and anonymous objects get different linker names; name, module and library of a binding, and library and number of a method, can be read off the linker name.", "quantifier": "every pair of objects, over all names", "why_tests_cant": "a collision needs a particular combination of names; the set of names is infinite", "anchors": ["sources/dfmc/mangling/mangling.dylan: mangle-binding-spread, mangle-namespace-spread-into, mangle-generic-method, mangle-local-method, mangle-domain, mangle-slot-descriptor, mangle-wrapper, mangle-symbol", "sources/dfmc/mangling/demangling.dylan: demangle-binding-spread, demangler-extract-method-details", "sources/dfmc/back-end/emit-object.dylan: emit-name-internal"]}
{"id": "C42", "title": "An instance of a type union is an instance of a member", "statement": "An object is an instance of type-union(t1, t2, ...) exactly when it is an instance of one of the given types.", "quantifier": "all objects and all lists of types", "why_tests_cant": "any number of types, arbitrarily nested", "anchors": ["sources/dylan/union.dylan: type-union, union-instance?"]}
{"id": "C43", "title": "Disjointness of classes rests on recorded common subclasses", "statement": "When two unrelated classes have a common subclass, each is recorded as joint with the other (on one side), and two primary classes with a common subclass are related; hence disjoint-types? never answers #t for two classes with a common subclass. This holds after any sequence of loaded libraries and run-time class creations.", "quantifier": "every sequence of class definitions", "why_tests_cant": "the record is made by a compile-time table, a load-time update and run-time class creation; tests use a handful of classes", "anchors": ["sources/dylan/class.dylan: disjoint-types-1?, augment-class-known-joint", "sources/dfmc/conversion/define-class.dylan: joint-table", "sources/dylan/class-dynamic.dylan: install-implementation-class"]}
{"id": "C44", "title": "The compiler's report on an inconsistent class is right and always comes", "statement": "The compiler reports an inconsistent precedence list exactly when no consistent one exists, and the report names two classes and two witnesses that their precedence lists order differently.", "quantifier": "every class definition over every class heterarchy", "why_tests_cant": "conflicts may involve any number of superclasses", "anchors": ["sources/dfmc/conversion/define-class-mop.dylan: ^compute-class-precedence-list, note-CPL-inconsistency"]}
{"id": "C45", "title": "Every slot of a class has its own place", "statement": "When a class is created, every slot that it or a superclass declares gets exactly one place, in the instance or in the class storage, within the recorded size and different from every other slot's; the place the slot accessors compute is that one. A subclass keeps the places of its first primary superclass. The class is refused, with the documented error, exactly when two declared slots share a getter or there are two repeated slots.", "quantifier": "every class heterarchy and every set of slot definitions", "why_tests_cant": "any number of superclasses, mixins and slots; offsets depend on the whole precedence list", "anchors": ["sources/dylan/class-dynamic.dylan: compute-slot-descriptors, check-for-duplicated-slots, check-for-illegally-inherited-slots", "sources/dylan/slot-descriptor.dylan: slot-offset-i", "sources/dfmc/conversion/define-class-mop.dylan: ^compute-slot-descriptors"]}
{"id": "C46", "title": "An offset the compiler takes to be fixed is right in every subclass", "statement": "Where the compiler replaces a slot access by an access at a fixed offset because the object is known to be an instance of a class (or of one of several), that offset is the place of the slot in every concrete class below.", "quantifier": "every class heterarchy, slot, and set of known subclasses", "why_tests_cant": "must hold for subclasses in libraries not yet written", "anchors": ["sources/dfmc/conversion/define-class-slot-mop.dylan: ^instance-slots-have-fixed-offsets?, slot-offset-fixed-in-class?, ^slot-fixed-offset", "sources/dfmc/optimization/dispatch.dylan: slot-fixed-offset-in", "sources/dfmc/conversion/classes.dylan: ^all-subclasses-if-sealed"]}
{"id": "C47", "title": "Slots behave as independent variables", "statement": "Reading an instance slot gives the value last stored in that slot of that object, whatever else is stored, in interpreted and compiled code. A class slot is one variable for the class and all its subclasses, an each-subclass slot one for each class, initialised once.", "quantifier": "every class, every object, every history of reads, writes and instance creations", "why_tests_cant": "histories are unbounded; class slot cells are created lazily in any order", "anchors": ["sources/dylan/slot-descriptor.dylan: slot-value, slot-value-setter, find-or-create-class-slot-storage", "sources/dylan/class.dylan: allocate-instance-i"]}
{"id": "C48", "title": "A new instance has the slot values its class definition says", "statement": "make gives each slot the first value supplied for its init keyword, else the default of the first class in the precedence list that gives one, else the initial value, else leaves it unbound; it signals an error if a required keyword is missing or a value is not of the type of the slot. This does not depend on which constructor (the run-time system's or the compiled one) is used, nor on whether defaults were computed at compile time.", "quantifier": "every class heterarchy, keyword and inherited-slot clauses, and arguments of make", "why_tests_cant": "interaction of clauses of any number of classes, in two separately written constructors", "anchors": ["sources/dylan/class.dylan: default-class-constructor, default-initialize, keyword-value, effective-initialization-argument-descriptor, defaulted-initialization-arguments", "sources/dylan/class-dynamic.dylan: compute-defaulted-initialization-arguments", "sources/dfmc/conversion/define-class.dylan: compute-method-body, compute-slot-initialization-code"]}
{"id": "C49", "title": "A slot compiled as always initialised is never unbound", "statement": "Where the compiler leaves out the test that a slot is bound, the slot is bound in every instance of the class and of its subclasses.", "quantifier": "every class heterarchy, slot, subclass and make arguments", "why_tests_cant": "subclasses are not known when the access is compiled", "anchors": ["sources/dfmc/conversion/define-class-slot-mop.dylan: slot-guaranteed-initialized-in-class?", "sources/dfmc/optimization/dispatch.dylan: slot-guaranteed-initialized-in?", "sources/dfmc/conversion/define-class.dylan: compute-slot-initialization-code"]}
{"id": "C50", "title": "Read-write locks behave as documented", "statement": "A read-write lock is granted for writing only when it is free and for reading only when no thread owns it; release frees a lock owned by the caller or lowers the count of readers, and fails otherwise; owned? answers whether the caller owns it. While threads release only what they have claimed, a thread that has the lock for writing is the only one that has it, and no release fails. No thread is left waiting un-notified for a lock that is free.", "quantifier": "every execution of any number of threads under every schedule", "why_tests_cant": "races between the monitor's lock, its notification and the unlocked read of owned?", "anchors": ["sources/dylan/locks.dylan: <read-write-lock>, wait-for, release, owned?", "sources/dylan/notification.dylan: release-all, wait-for", "documentation/source/library-reference/dylan/threads.rst"]}
{"id": "C51", "title": "The dispatch tables of a generic function are finite maps", "statement": "Whatever entries are added in whatever order to the table in which dispatch finds the node for a class, every addition ends, every search ends, and looking up a class gives the node last stored for it, or a miss if there is none. This holds as the table passes from one entry to a short list to a hash table that is enlarged.", "quantifier": "every sequence of additions, every set of class keys, every expected size", "why_tests_cant": "termination of open addressing depends on the load, the probe step and the size for all histories", "anchors": ["sources/dylan/new-dispatch.dylan: ckd-add!, mckd-add!, lckd-add!, hckd-add!, enlarge?, grow-linear-class-keyed-discriminator, grow-hashed-class-keyed-discriminator, hashed-class-key-lookup, linear-class-key-lookup, make-by-class-discriminator, make-by-singleton-class-discriminator"]}
{"id": "C52", "title": "Applicable methods are ordered by specificity", "statement": "For the arguments of a call, one method is taken to be more specific than another exactly if the language says so: by subtyping, by the class precedence list of the class of the argument, and for subclass types by that of the argument, at every argument position. Sorting the applicable methods puts each one before all less specific ones, leaves as ambiguous only methods that cannot be ordered, loses none, and does not depend on the order in which methods were defined.", "quantifier": "every class heterarchy, every set of applicable methods and every list order, every number of arguments", "why_tests_cant": "specificity is a relation between any number of methods of any types; tests cover a few", "anchors": ["sources/dylan/discrimination.dylan: compute-sorted-applicable-methods-1, %order-methods, %order-specializers, %order-specializers-default, %class<, same-specializer?"]}
{"id": "C53", "title": "The dispatch cache is transparent", "statement": "Whatever calls of a generic function were made before, with whatever arguments, a call invokes exactly the methods that are applicable to its arguments, in order of specificity, or signals that there are none; slot accessors use the place of the slot in the class of the argument. No call fails inside the dispatcher, and each needs at most one extension of the cache.", "quantifier": "every generic function, every history of calls with any arguments", "why_tests_cant": "the cache is a tree built lazily by the calls themselves; a wrong node shows only for particular histories", "anchors": ["sources/dylan/discrimination.dylan: walk-existing-dispatch-engine, compute-more-dispatch-engine, compute-discriminator-for-arg, compute-subdiscriminator-for-arg, compute-default-subdiscriminator, compute-terminal-engine-node", "sources/dylan/new-dispatch.dylan: handle-missed-dispatch, %gf-dispatch-if-type, %gf-dispatch-immutable-class-keyed", "sources/dylan/dispatch.dylan: grounded-has-instances?"]}
{"id": "C54", "title": "A generic function is a set of methods that can be changed at any time", "statement": "add-method makes the method one of the methods of the generic function, in place of one with the same specializers, which it returns if there was one; remove-method takes away the method it is given and returns it; find-method finds the method with the given specializers. Whatever methods were added and removed and whatever calls were made, a call invokes the applicable ones of the methods that are there at the time, in order of specificity.", "quantifier": "every generic function and every history of additions, removals and calls", "why_tests_cant": "histories of any length; the effect of stale caches shows only after particular sequences; the suite's test of remove-method is empty", "anchors": ["sources/dylan/generic-function.dylan: add-method, add-method-internal-internal, %add-method-and-library, remove-method, remove-method-internal, find-method, locate-method, copy-over-without, finalize-generic-function"]}
{"id": "C55", "title": "Integers and strings convert into each other", "statement": "integer-to-string writes the sign, the fill and the digits of the integer in the base, without leading zeros and never shorter than the given size. string-to-integer skips blanks, reads a sign and as many digits as there are, and returns the number they stand for and the key after them; it returns the default or signals an error if there is no digit, and signals overflow exactly when the number is not an integer. Reading what was written gives back the integer.", "quantifier": "every integer, base, size, string, start and end", "why_tests_cant": "2^62 integers in 35 bases, and all strings", "anchors": ["sources/common-dylan/format.dylan: integer-to-string, string-to-integer, character-to-integer"]}
{"id": "C56", "title": "Dates follow the Gregorian calendar", "statement": "A date can be made of exactly the existing days of 1800 to 2199, times of day and time zones of at most 24 hours. date-day-of-week gives the right weekday, and the days are counted right across month ends, leap years and centuries, before and after 1900.", "quantifier": "every day of every year, every field value", "why_tests_cant": "the rules have exceptions at 4, 100 and 400 years and two code branches around 1900; tests sample days", "anchors": ["sources/system/date.dylan: leap-year?, days-in-month, days-since-1900, date-day-of-week, initialize"]}
{"id": "C57", "title": "A date is a point in time, whatever its time zone", "statement": "= and < on dates compare the seconds they name. Changing the time zone offset of a date does not change the point in time, whatever was done with it before. Adding a day/time duration moves the point in time by exactly its length; x - y is the time between two dates and y + (x - y) is the point in time of x. Adding months keeps the day and time of day, and offers the last day of the month if there is no such day. All results have existing fields, and every operation ends.", "quantifier": "every date, time zone, duration and history of a date object", "why_tests_cant": "carries through seven fields with loops over months, and cached values", "anchors": ["sources/system/date.dylan: compute-universal-time, update-date-universal-slots, date-time-zone-offset-setter, canonicalize-date, \\=, \\<", "sources/system/durations.dylan: add-duration-to-date, canonicalize-date-month-year, \\-, \\+"]}
{"id": "C58", "title": "Durations are lengths of time", "statement": "Making a duration, taking it apart, adding, subtracting, and scaling by an integer are exact; comparing durations compares their lengths; dividing gives the length divided.", "quantifier": "all durations of any sign and size", "why_tests_cant": "mixed signs of days, seconds and microseconds", "anchors": ["sources/system/durations.dylan: canonicalize-duration, encode-day/time-duration, decode-duration, \\=, \\<, add-durations, subtract-durations, scale-duration, \\/"]}
{"id": "C59", "title": "Dates can be written as text and read back", "statement": "parse-iso8601-string accepts exactly the documented texts and gives them their meaning; it reads what as-iso8601-string writes. parse-date-string reads what format-date writes with the same control string.", "quantifier": "every text, every date, every control string", "why_tests_cant": "infinitely many texts and control strings", "anchors": ["sources/system/date.dylan: split-iso8601-string, parse-iso8601-string, as-iso8601-string, format-date, parse-date-string", "documentation/source/library-reference/system/date.rst"]}
{"id": "C60", "title": "Stretchy vectors are sequences that grow", "statement": "Any history of add!, element, element-setter, size-setter, remove! and iteration on a stretchy vector gives the results it gives on a plain sequence; no call reads or writes outside the store. Elements that were not stored have the default value of the element type, a call that signals an error leaves the vector as it was, and all elements are of the element type.", "quantifier": "every history of calls, every size and capacity, every element type", "why_tests_cant": "the representation is replaced, filled and reused at sizes and capacities that depend on the whole history", "anchors": ["sources/dylan/stretchy-vector.dylan: make, add!, trusted-size-setter, size-setter, element, element-setter, remove!, as", "sources/dylan/limited-stretchy-vector.dylan: initialize, element-setter", "sources/dylan/integer.dylan: power-of-two-ceiling"]}
{"id": "C61", "title": "size ends on every list", "statement": "size of a proper list is the number of its elements, of a circular list #f, and of a list that ends in something else an error. Every list is one of the three.", "quantifier": "every list in every memory, with any sharing and cycles", "why_tests_cant": "cycles of every length behind prefixes of every length", "anchors": ["sources/dylan/list.dylan: size"]}
{"id": "C62", "title": "List functions that do not change their arguments do not change anything", "statement": "element, member?, reduce, last, reverse, remove, remove-duplicates, add-new, copy-sequence and concatenate-as on lists give the elements the corresponding operation on sequences gives, with the documented errors for bad keys and bounds, and leave every pair that existed as it was.", "quantifier": "every list, every sharing of pairs, every key, bound, test and count", "why_tests_cant": "lists share pairs, and the functions are written with destructive loops on fresh pairs", "anchors": ["sources/dylan/list.dylan: element, member?, remove, remove-duplicates, add-new, last, reverse, copy-sequence, concatenate-as-two, concatenate-as, reduce, forward-iteration-protocol"]}
{"id": "C63", "title": "Destructive list functions change their own list only", "statement": "element-setter, last-setter, reverse!, remove!, remove-duplicates! and replace-subsequence! on lists have as their result the list the operation is documented to give, made of pairs of the argument (and new ones), and change no other pair.", "quantifier": "every list, every sharing of pairs, every key, bound, test and count", "why_tests_cant": "the damage of a wrong store shows only where a pair is shared", "anchors": ["sources/dylan/list.dylan: element-setter, last-setter, reverse!, remove!, remove-duplicates!, replace-subsequence!"]}
{"id": "C64", "title": "Exit procedures leave to their block, with their values", "statement": "Calling the exit procedure of a block that is not over ends the block with the values of the call, whatever blocks, calls and cleanup clauses are in between, and nothing else of what was under way goes on, apart from the cleanup clauses on the way. A cleanup clause that exits takes the place of what was under way; one that does not leaves it alone.", "quantifier": "every program of blocks, exits, cleanup clauses and calls, nested in any way, every behaviour of the called code", "why_tests_cant": "exits depend on the whole chain of frames at the time they are called, and cleanup clauses run in the middle of them", "anchors": ["sources/lib/run-time/c-run-time-nlx.c: NLX, nlx_step, SETUP_EXIT_FRAME, SETUP_UNWIND_FRAME, FALL_THROUGH_UNWIND, CONTINUE_UNWIND, FRAME_RETVAL", "sources/dfmc/c-back-end/c-emit-computation.dylan: emit-computation on <bind-exit>, <exit>, <unwind-protect>", "sources/dfmc/optimization/closure.dylan: analyze-block, exit-with-intervening-block?"]}
{"id": "C65", "title": "Cleanup clauses run exactly once", "statement": "Once the body of a block with a cleanup clause has been entered, the cleanup clause is run exactly once, after the body, however the body ends; inner cleanup clauses run before outer ones.", "quantifier": "every program of blocks, exits, cleanup clauses and calls, nested in any way, every behaviour of the called code", "why_tests_cant": "as for exits", "anchors": ["sources/lib/run-time/c-run-time-nlx.c: nlx_step, FALL_THROUGH_UNWIND, CONTINUE_UNWIND", "sources/dfmc/c-back-end/c-emit-computation.dylan: emit-computation on <unwind-protect>"]}
{"id": "C66", "title": "A call binds the parameters of a method to its arguments", "statement": "In a call of a method the required parameters get the arguments in order, the #rest parameter the others, each keyword parameter the value after the first occurrence of its keyword, or its default. Too few or too many arguments, a required argument of the wrong type, an odd number of keyword arguments and unknown keywords are errors. This does not depend on the calls made before.", "quantifier": "all methods, all numbers of arguments and all argument lists, all states of the thread", "why_tests_cant": "the entry point is chosen by the number of parameters and passes through buffers of fixed size", "anchors": ["sources/lib/run-time/c-run-time.c: xep, rest_xep, rest_key_xep, process_keyword_call_into, process_keyword_parameters, default_arguments, CALL_CHECK, KEYWORD_CALL_CHECK, iep_apply", "sources/dfmc/c-back-end/c-emit-object.dylan: emit-xep-reference"]}
{"id": "C67", "title": "apply is the call with the arguments spread", "statement": "apply(f, a, ..., v) does what the call of f with a, ... and the elements of v does.", "quantifier": "all functions, all argument lists and vectors", "why_tests_cant": "any number of elements", "anchors": ["sources/lib/run-time/c-run-time.c: primitive_apply, primitive_apply_using_buffer, primitive_xep_apply"]}
{"id": "C68", "title": "Keyword arguments of generic functions are checked against all applicable methods", "statement": "A call of a generic function accepts the keywords of every applicable method, or all keywords if the function or one of the methods takes all; any other keyword, and an odd number of keyword arguments, is an error. The most specific method gets its parameters as in a direct call.", "quantifier": "all signatures, all sets of applicable methods, all argument lists, all states of the thread", "why_tests_cant": "depends on the combination of methods, on the engine node chosen and on what earlier calls left in the thread", "anchors": ["sources/lib/run-time/c-run-time.c: gf_optional_xep, check_explicit_kwds, key_mep, primitive_mep_apply_with_optionals", "sources/dylan/discrimination.dylan: determine-call-keywords, transmogrify-method-list-grounded", "sources/dylan/new-dispatch.dylan: make-single-method-engine-node", "sources/dylan/boot.dylan: invalid-keyword-trap"]}
{"id": "C69", "title": "Operations on a table shared by threads take effect at one moment", "statement": "When several threads use one table with element, element-setter, remove-key! and remove-all-keys!, without locks of their own, the results are those of some order of the calls in which each call takes effect once, between its start and its return. No call returns an object that was never stored, and no store, removal or key is lost.", "quantifier": "all schedules of any number of threads, all sequences of calls, all hash functions, all moments at which the collector moves objects or the table is rehashed", "why_tests_cant": "the outcome depends on the interleaving of single memory accesses in lock-free readers", "anchors": ["sources/dylan/table.dylan: gethash, puthash, remove-key!, remove-all-keys!, rehash-table, needs-rehash?, clear-table-vector!"]}
{"id": "C70", "title": "A string names one symbol under all schedules", "statement": "Calls of as(<symbol>, s) and make(<symbol>, name: s) with equal strings return the same symbol, in whatever threads and at whatever moments they are made; the symbol is one that a call with an equal string has made.", "quantifier": "all schedules of any number of threads, all sequences of strings", "why_tests_cant": "two threads that intern a new string at the same moment race for one entry of the table", "anchors": ["sources/dylan/symbol-table.dylan: %resolve-symbol, gethash-or-set, make-symbol"]}
{"id": "C71", "title": "Logical operations on bit vectors work bit by bit", "statement": "bit-vector-and, -andc2, -or, -xor and -not give a vector and a pad that have, at every index, the result of the operation on the bits of the arguments, where each argument is continued without end by its pad. The arguments are not changed; the versions with ! change no vector but the first.", "quantifier": "all vectors of all sizes, all pads, equal and different vectors", "why_tests_cant": "sizes that are not multiples of the word size meet in every combination with the pads; the bits beyond the end of a vector are arbitrary", "anchors": ["sources/collections/bit-vector.dylan: bit-vector-and, bit-vector-and!, bit-vector-andc2, bit-vector-andc2!, bit-vector-or, bit-vector-or!, bit-vector-xor, bit-vector-xor!, bit-vector-not, bit-vector-not!, make"]}
{"id": "C72", "title": "Bit sets are sets of natural numbers", "statement": "Whatever sets are made and changed by set-add, set-remove, set-union, set-intersection, set-difference, set-complement, copy-bit-set!, empty-bit-set! and universal-bit-set!, pure or destructive, finite or infinite, member?, size, empty?, infinite? and = answer as for the sets of natural numbers these calls stand for. A call changes no set but the one it is documented to change.", "quantifier": "every history of calls, with any sets as arguments", "why_tests_cant": "histories are unbounded, and sets are infinite", "anchors": ["sources/collections/bit-set.dylan: make, member?, set-add, set-add!, set-remove, set-remove!, set-union, set-intersection, set-difference, set-complement, copy-bit-set!, empty-bit-set!, universal-bit-set!, size, empty?, infinite?, \\="]}
{"id": "C73", "title": "Iteration over a bit set visits its members in order", "statement": "A forward iteration visits exactly the members, each once and in ascending order; it ends exactly if the set is finite. A backward iteration over a finite set visits them in descending order; over an infinite set it is an error.", "quantifier": "every set, every state of the representation", "why_tests_cant": "the bits beyond the end of the vector depend on the history of the set", "anchors": ["sources/collections/bit-set.dylan: forward-iteration-protocol, bs-fip-initial-state, bs-fip-next-state, bs-fip-finished-state?, backward-iteration-protocol, bs-bip-initial-state, bs-bip-next-state"]}
{"id": "C74", "title": "Elements, fill! and bit-count of bit vectors", "statement": "element reads and element-setter writes exactly one bit, or signals an error if there is none. fill! stores the value in exactly the bits from start below end. bit-count is the number of bits with the value.", "quantifier": "all vectors, indices and bounds", "why_tests_cant": "word boundaries and bounds meet in every combination", "anchors": ["sources/collections/bit-vector.dylan: element, element-setter, fill!, bit-count"]}
{"id": "C75", "title": "An input file stream is the file", "statement": "On a stream opened for input, every sequence of read-element, peek, read, read-skip, read-line, read-to-end, stream-contents, stream-at-end?, stream-position, stream-size, position changes and unread-element answers what the bytes of the file say, whatever the size of the buffer; reading in pieces delivers the bytes in order. The file is not changed.", "quantifier": "every file, every buffer size, every opening position, every history of calls", "why_tests_cant": "line ends, requests and positions fall on buffer boundaries in every combination", "anchors": ["sources/io/streams/file-stream.dylan: load-buffer, do-get-input-buffer, do-next-input-buffer, do-get-output-buffer, do-next-output-buffer, force-buffer, stream-position, stream-position-setter, adjust-stream-position-from-start, stream-contents, read-to-end", "sources/io/streams/buffered-stream.dylan: get-input-buffer, get-output-buffer, read-element, peek, read-into!, read, read-skip, read-line, write-element, write, write-line, write-fill", "sources/io/unix-file-accessor.dylan: accessor-read-into!, accessor-write-from, accessor-position-setter", "sources/io/streams/buffer.dylan: round-to-power-of-two"]}
{"id": "C76", "title": "What is written to an output file stream is in the file", "statement": "After any sequence of write-element, write, write-line, write-fill, force-output and position changes on an output stream, close (and force-output) leaves in the file the bytes it had, with the bytes written put in at the positions where they were written; stream-position and stream-size agree. Reading the file gives them back.", "quantifier": "every file, every buffer size, every history of calls", "why_tests_cant": "the state of the buffer depends on all the calls since it was last empty", "anchors": ["sources/io/streams/file-stream.dylan: load-buffer, do-get-input-buffer, do-next-input-buffer, do-get-output-buffer, do-next-output-buffer, force-buffer, stream-position, stream-position-setter, adjust-stream-position-from-start, stream-contents, read-to-end", "sources/io/streams/buffered-stream.dylan: get-input-buffer, get-output-buffer, read-element, peek, read-into!, read, read-skip, read-line, write-element, write, write-line, write-fill", "sources/io/unix-file-accessor.dylan: accessor-read-into!, accessor-write-from, accessor-position-setter"]}
{"id": "C77", "title": "An input-output file stream is a file that can be read and changed", "statement": "Every history of reading, writing and position changes on an input-output stream answers like a file that is changed at once, and leaves its bytes in the file when the stream is closed or forced.", "quantifier": "every file, every buffer size, every history of calls", "why_tests_cant": "one buffer serves for reading and writing, and is switched by the calls", "anchors": ["sources/io/streams/file-stream.dylan: load-buffer, do-get-input-buffer, do-next-input-buffer, do-get-output-buffer, do-next-output-buffer, force-buffer, stream-position, stream-position-setter, adjust-stream-position-from-start, stream-contents, read-to-end", "sources/io/streams/buffered-stream.dylan: get-input-buffer, get-output-buffer, read-element, peek, read-into!, read, read-skip, read-line, write-element, write, write-line, write-fill", "sources/io/unix-file-accessor.dylan: accessor-read-into!, accessor-write-from, accessor-position-setter"]}
{"id": "C78", "title": "read delivers the elements if they are there", "statement": "read(stream, n, on-end-of-stream: x) returns the next n elements if there are as many, and x if there are not.", "quantifier": "every stream, every count, every value of x, after every history", "why_tests_cant": "the value may be any object", "anchors": ["sources/io/streams/buffered-stream.dylan: read, read-into!"]}
{"id": "C79", "title": "A position past the end of the file adds zeros", "statement": "Setting the position of an output stream past the end of the file makes the file that long when the stream is closed, with zeros in the gap.", "quantifier": "every file, every buffer size, every position, after every history in the process", "why_tests_cant": "a buffer shared by all streams is involved", "anchors": ["sources/io/streams/file-stream.dylan: writable-file-stream-position-setter, adjust-stream-position-from-start, force-buffer, $null-buffer"]}
{"id": "C80", "title": "A sequence stream is the part of the sequence it was made for", "statement": "Every sequence of read-element, peek, unread-element, read, write-element, write, stream-at-end?, stream-size, stream-contents and position changes on a stream over a sequence (a string stream) answers like the part of the sequence between start: and end: with a position in it, which is changed by the writes and grows when something is written at its end.", "quantifier": "every sequence, every start: and end:, every direction, every history of calls", "why_tests_cant": "histories are unbounded, and the stream keeps four positions that must agree", "anchors": ["sources/io/streams/sequence-stream.dylan: initialize, read-element, unread-element, peek, read, write-element, write, grow-for-stream, stream-at-end?, stream-size, clear-contents, stream-contents, stream-contents-as", "sources/io/streams/stream.dylan: stream-position, stream-position-setter, adjust-stream-position"]}
{"id": "C81", "title": "What is written to a string is there", "statement": "stream-contents of an output sequence or string stream, and with-output-to-string, return everything that was written, in the order of the calls, and nothing else, whatever sequence the stream was made with; after stream-contents with clearing the stream starts from nothing.", "quantifier": "every sequence of writes of any sizes, every initial sequence", "why_tests_cant": "growth happens at sizes that depend on the history", "anchors": ["sources/io/streams/sequence-stream.dylan: with-output-to-string, write-element, write, grow-for-stream, stream-contents"]}
{"id": "C82", "title": "The functions on any stream read what they say", "statement": "On any stream whose stream-at-end?, read-element and peek deliver some elements in order, read-to, read-through, read-to-end, skip-through, read-line, read-line-into! and read-text-into! answer what these elements say, and leave the others to be read. Sequence streams and file streams are such streams.", "quantifier": "every stream, every sequence of elements, every test, every string and start", "why_tests_cant": "the elements are of any number and the classes of streams are open", "anchors": ["sources/io/streams/convenience.dylan: read-to, read-through, read-to-end, skip-through, read-line, read-line-into!, read-text-into!"]}
{"id": "C83", "title": "read-into! stores what it reads", "statement": "read-into!(stream, n, dst, start: i) on a sequence stream stores the next elements from i on, as many as are there up to n, and exactly these are read.", "quantifier": "every stream, count, destination and start", "why_tests_cant": "counts and room meet in every combination", "anchors": ["sources/io/streams/sequence-stream.dylan: read-into!"]}
{"id": "C84", "title": "A locator names what its string names", "statement": "The directory or file locator made from a POSIX path string names the directory or file the string names; the string of a locator names what the locator names, and reading it gives an equal locator. Making a file locator from a directory and a name keeps the name, however it is divided into base and extension.", "quantifier": "every string, every directory and file locator, every current directory", "why_tests_cant": "strings have slashes, dots and empty pieces in any number and order", "anchors": ["sources/system/locators/utilities.dylan: find-delimiter-from-end, canonicalize-path, parse-path, path-to-string", "sources/system/file-system/posix-locators.dylan: make, string-as-locator, locator-as-string, locator-name"]}
{"id": "C85", "title": "simplify-locator keeps the place and gives a normal form", "statement": "simplify-locator gives a locator for the same directory or file, whatever the current directory; it has its .. first and no . unless it is only that; simplifying again changes nothing; and locators for the same place are simplified to equal locators.", "quantifier": "every locator, every current directory", "why_tests_cant": "paths are of any length, with .. and . anywhere", "anchors": ["sources/system/locators/utilities.dylan: simplify-path", "sources/system/locators/locators.dylan: simplify-locator"]}
{"id": "C86", "title": "relative-locator leads from the second locator to the first", "statement": "relative-locator(l, from) is a relative locator which, merged with from, names what l names.", "quantifier": "every pair of locators, every current directory", "why_tests_cant": "the shared part and the rest are of any length", "anchors": ["sources/system/locators/utilities.dylan: relative-path", "sources/system/locators/locators.dylan: relative-locator"]}
{"id": "C87", "title": "merge-locators means the first locator from the second", "statement": "merge-locators(l, from) names what l names for a process whose current directory is the directory of from (with the name of from if l is a directory and from a file); subdirectory-locator and file-locator name what is found by following the names.", "quantifier": "every pair of locators, every current directory, every list of names", "why_tests_cant": "locators are of any length and four kinds of pairs exist", "anchors": ["sources/system/locators/locators.dylan: merge-locators, subdirectory-locator, file-locator"]}
{"id": "C88", "title": "locator-directory is the directory a locator is in", "statement": "locator-name(l) is a name in locator-directory(l) and names the same directory as l.", "quantifier": "every directory locator, every current directory", "why_tests_cant": "paths are of any length and end with any item", "anchors": ["sources/system/locators/locators.dylan: locator-directory", "sources/system/file-system/posix-locators.dylan: locator-name"]}
{"id": "C89", "title": "split cuts at the separators", "statement": "split(s, x) returns the parts of s between start: and end: before, between and after the elements (or, for a sequence x, the occurrences from the left) that match x, in order and nothing else; with count: n it stops cutting when it has n parts, the last of which is all that is left; with remove-if-empty?: the empty parts are left out and not counted. A separator of no elements is an error.", "quantifier": "every sequence, separator, test, start, end and count", "why_tests_cant": "separators are adjacent, at the ends, overlapping, in any number", "anchors": ["sources/common-dylan/common-extensions.dylan: split, find-separator, find-pos, looking-at?"]}
{"id": "C90", "title": "join and split are inverse", "statement": "join(ss, sep, conjunction: c) returns the sequences with sep between them (c before the last). Joining with x what split made at x gives the sequence back; splitting at x what join made with x gives the parts back, if x is in none of them.", "quantifier": "every list of sequences, every separator and conjunction", "why_tests_cant": "sequences are of any number and size, also empty", "anchors": ["sources/common-dylan/common-extensions.dylan: join, split"]}
{"id": "C91", "title": "position and find-element find what is there", "statement": "position(s, x, test:, start:, end:, skip: n) is the index of the element after n others from start below end that pass the test, or #f; the methods for vectors and for other sequences agree. find-element(s, f, skip: n, failure: y) is the element after n others that satisfy f, or y.", "quantifier": "every sequence, test, start, end and skip", "why_tests_cant": "sequences are of any size", "anchors": ["sources/common-dylan/common-extensions.dylan: position, find-element", "sources/dylan/sequence.dylan: find-key"]}
{"id": "C92", "title": "fill-table! and difference", "statement": "After fill-table!(t, list(k1, v1, ...)) the table has each value at its key, the last one if a key is given more than once, and the other keys unchanged. difference(s1, s2) has exactly the elements of s1 that match none of s2, in order.", "quantifier": "every list of keys and values, every table, every pair of sequences and test", "why_tests_cant": "keys and values may be any objects", "anchors": ["sources/common-dylan/common-extensions.dylan: fill-table!, difference"]}
{"id": "C93", "title": "fill!, replace-elements!, copy-sequence, replace-subsequence! and concatenate-as change and copy exactly the elements they are to", "statement": "fill!(s, v, start:, end:) stores v in exactly the elements from start up to end, copy-sequence copies exactly these, replace-subsequence! returns the elements with the new ones in their place; other bounds are an error. replace-elements! replaces exactly the elements that satisfy the predicate, or the first count: of them. concatenate-as returns the elements of all its arguments in order.", "quantifier": "every list, vector and deque (wherever its elements are in its representation), every start, end, count, predicate and value", "why_tests_cant": "sequences of three representations, of any size, and all bounds", "anchors": ["sources/dylan/mutable-collection.dylan: fill!, replace-elements!", "sources/dylan/mutable-sequence.dylan: fill!, replace-subsequence!", "sources/dylan/sequence.dylan: copy-sequence", "sources/dylan/collection.dylan: concatenate-as"]}
{"id": "C94", "title": "subsequence-position finds the given occurrence", "statement": "subsequence-position(big, pattern, test:, count: n) is the index of the n-th place where all elements of the pattern match those of big, overlapping places counted, or #f if there are fewer.", "quantifier": "every two sequences of any kind, every test and count", "why_tests_cant": "the search backs up after partial matches of any length", "anchors": ["sources/dylan/sequence.dylan: subsequence-position"]}
{"id": "C95", "title": "= on collections compares keys and elements", "statement": "Two sequences are = exactly if they are of the same size with = elements in the same places, whatever their classes; two tables with the same key test exactly if they have the same keys with = elements; a sequence and a table exactly if the keys of the table are the indices of the sequence, with = elements.", "quantifier": "every two collections", "why_tests_cant": "collections are of any size and the keys in any order", "anchors": ["sources/dylan/collection.dylan: =", "sources/dylan/sequence.dylan: =", "sources/dylan/array.dylan: ="]}
{"id": "C96", "title": "The functions that choose elements", "statement": "choose and choose-by return exactly the elements that pass, in order; remove returns those that do not match (all but the first count: that do); remove-duplicates keeps the first of those that match each other; union, intersection and add-new contain what the sets of their names do; member?, any? and every? answer whether an element, some element, or all elements (up to the shorter sequence) pass.", "quantifier": "every sequence, test and count", "why_tests_cant": "sequences and tests are arbitrary", "anchors": ["sources/dylan/sequence.dylan: choose, choose-by, remove, remove-duplicates, union, intersection, add-new", "sources/dylan/collection.dylan: member?, any?, every?"]}
{"id": "C97", "title": "map-into stores the mapped elements", "statement": "After map-into(target, f, source) the target has f of the elements of the source at their keys; its other elements are as before; a target that can grow grows to have room for them, and any other target keeps its size and the elements beyond it are ignored.", "quantifier": "every target and source of any kind and size, also tables as sources, and every function", "why_tests_cant": "targets and sources of any kinds are combined, of any sizes", "anchors": ["sources/dylan/collection.dylan: map-into, map-into-rigid-one, map-into-stretchy-one"]}
{"id": "C98", "title": "Iteration over several collections visits the common keys", "statement": "for (x in a, y in b, ...) over sequences takes as many steps as the shortest has elements; over tables, or sequences and tables, as with do, map and any?, it visits exactly the keys that all of them have, each once, with their elements.", "quantifier": "every number of collections of every kind and size, also unbounded ranges", "why_tests_cant": "the keys of the tables are in any order and any number of them is common", "anchors": ["sources/dylan/multiple-collection.dylan: <multiple-collection>, forward-iteration-protocol, skip-until-common"]}
{"id": "C99", "title": "An accumulator gives back what was put in", "statement": "Elements added to an accumulator come out in the order in which they were added, however many; so do keys with their elements. Keys and elements become a sequence exactly if the keys are the numbers from 0 up to their number; then each element is at the index that is its key, and otherwise there is an error.", "quantifier": "every list of elements or of keys and elements", "why_tests_cant": "the elements fill any number of buffers, the last one partly", "anchors": ["sources/dylan/accumulator.dylan: add!, element-setter, invert-accumulator, forward-iteration-protocol, convert-accumulator-as"]}
{"id": "C100", "title": "Big integers add, subtract and compare like numbers", "statement": "With the big-integers library, +, -, negative and abs return the exact number, or signal an overflow if it does not have 128 bits; =, <, zero?, positive?, negative? and odd? answer as for the numbers; and each number has one representation, a small integer if it has 62 bits.", "quantifier": "all pairs of integers of 128 bits", "why_tests_cant": "there are 2^256 pairs, and carries, signs and the two representations meet in all combinations", "anchors": ["sources/lib/big-integers/double-integer.dylan: +, -, negative, abs, interpret-result-as-abstract-integer", "sources/dylan/double-integer-basics.dylan: =, <, odd?, zero?, positive?, negative?", "sources/dylan/conversion-tagged-integer.dylan: double-integer-is-integer?"]}
{"id": "C101", "title": "Big integers multiply like numbers", "statement": "* returns the exact product, or signals an overflow if it does not have 128 bits.", "quantifier": "all pairs of integers of 128 bits", "why_tests_cant": "all pairs of words are combined", "anchors": ["sources/lib/big-integers/double-integer.dylan: *"]}
{"id": "C102", "title": "Big integers divide like numbers", "statement": "truncate/, floor/ and ceiling/ return the quotient rounded as their names say and the remainder that belongs to it.", "quantifier": "all pairs of integers of 128 bits with a divisor that is not zero", "why_tests_cant": "quotients are put together from three partial ones, of any signs", "anchors": ["sources/lib/big-integers/double-integer.dylan: truncate/, floor/, ceiling/, double-integer-by-integer-truncate/"]}
{"id": "C103", "title": "Shifts and bits of big integers", "statement": "ash(x, n) is x times the power of two, rounded down, or an overflow if it does not have 128 bits; lsh shifts the representation with 128 bits; logior, logxor, logand, lognot and logbit? work on each bit of two's complement.", "quantifier": "all integers of 128 bits, all counts and bit numbers", "why_tests_cant": "shifts cross the boundary of the words at every count", "anchors": ["sources/lib/big-integers/double-integer.dylan: ash, ash-left, ash-right, lsh, lsh-left, lsh-right, binary-logior, binary-logxor, binary-logand, lognot, logbit?"]}
{"id": "C104", "title": "Powers of big integers", "statement": "base ^ power is the exact power, or an overflow if it does not have 128 bits.", "quantifier": "all bases of 128 bits, all powers that are not negative", "why_tests_cant": "the squares formed on the way can exceed the result", "anchors": ["sources/lib/big-integers/double-integer.dylan: ^"]}
{"id": "C105", "title": "The digits and the length of a big integer", "statement": "number-to-string gives the decimal digits of the number; integer-length the number of bits of its magnitude.", "quantifier": "all integers of 128 bits", "why_tests_cant": "the digits depend on repeated division", "anchors": ["sources/lib/big-integers/double-integer.dylan: number-to-string, integer-length"]}
{"id": "C106", "title": "Programs with handlers and exception clauses run as they are written", "statement": "A program with let handler, exception clauses, cleanup clauses, exits, signal, error and next-handler calls the code it names in this order and with these values: a handler is called by signal, in the place of the signal, with the handlers that are in force there; next-handler goes on with the handlers outside of the one it was given to, then with the last handlers, then with the default handler, each time it is called; an exception clause first leaves everything inside of its block, with the cleanup clauses there, each with the handlers in force around it, and then runs its body with the handlers around the block, whose values are those of the block.", "quantifier": "every program of these constructs that ends, every handler, test and default handler, also those that signal themselves", "why_tests_cant": "handlers call handlers to any depth, and exits cross any number of blocks", "anchors": ["sources/dylan/condition.dylan: signal, handler-matches?, invoke-handler, default-handler", "sources/dfmc/conversion/convert.dylan: %with-exception, %let-handler, block"]}
{"id": "C107", "title": "let handler and exception clauses leave no handlers behind", "statement": "When let handler or a block with an exception clause ends, normally or by an exit, the handlers in force are those from before. The body of an exception clause runs with the handlers around its block.", "quantifier": "every body, every way to leave it, every handler called meanwhile", "why_tests_cant": "the ways out of a body are unbounded", "anchors": ["sources/dfmc/conversion/convert.dylan: %with-exception, %let-handler"]}
{"id": "C108", "title": "error does not return, cerror returns when it is told to", "statement": "error never returns, whatever handlers, default handlers and the debugger return; so the code after it is not run. cerror returns #f if a handler of the error signals a <simple-restart>.", "quantifier": "every condition, every set of handlers, every default handler and debugger", "why_tests_cant": "handlers are arbitrary code and are called again for the error about the return", "anchors": ["sources/dylan/condition.dylan: error", "sources/dylan/condition-extras.dylan: cerror, break, default-handler"]}
{"id": "C109", "title": "signal calls the handlers that apply, from the inside", "statement": "signal(c) calls the handlers whose type and test accept c: the innermost first, then those outside as long as each declines, then the last handlers, the newest first, then the default handler. Its value is that of the first that does not decline. The default handler returns #f; for a serious condition it calls the debugger, for a restart it is an error.", "quantifier": "every list of handlers in force and of last handlers, every condition", "why_tests_cant": "any number of handlers, each accepting and declining differently", "anchors": ["sources/dylan/condition.dylan: signal, handler-matches?, add-last-handler, default-handler"]}
{"id": "C110", "title": "do-handlers shows the handlers in the order in which signal looks at them", "statement": "do-handlers(f) calls f once for each handler in force, the innermost first, and then for each last handler, the newest first, with what the handler was made with.", "quantifier": "every list of handlers", "why_tests_cant": "lists of handlers are of any length", "anchors": ["sources/dylan/condition-extras.dylan: do-handlers"]}
{"id": "C111", "title": "Operators are grouped by precedence and associativity", "statement": "A series of operands and binary operators is read as the one expression whose operands and operators are these, in this order, and in which every operator binds according to its precedence and associativity; writing an expression that is so grouped as a series and reading it gives it back.", "quantifier": "every series of operands and of the sixteen binary operators", "why_tests_cant": "series are of any length and every combination of precedences occurs", "anchors": ["sources/dfmc/reader/parser-support.dylan: append-binop!, binop-fragment, operator-precedence", "sources/dfmc/reader/infix-parser.dylan"]}
{"id": "C112", "title": "Tokens are where the lexer says they are", "statement": "The tokens of a source cover it: between one token and the next there is only white space and comments. The line and the column given for the start and for the end of a token are those of its first character and of the one after its last.", "quantifier": "every source, every position in it where a token is read", "why_tests_cant": "sources are arbitrary text, with newlines in comments, strings and literals", "anchors": ["sources/dfmc/reader/lexer.dylan: get-token, make-hash-literal, make-source-location"]}
{"id": "C113", "title": "The lexer takes the longest token", "statement": "A token is the longest text from its start that is a token according to the table of states; the lexer does not fail with an internal error.", "quantifier": "every source, every position in it where a token is read", "why_tests_cant": "the table has 201 states and the lexer returns to the last one that accepts from any distance", "anchors": ["sources/dfmc/reader/lexer.dylan: get-token, do-state-action", "sources/dfmc/reader/lexer-transitions.dylan: $initial-state"]}
{"id": "C114", "title": "Packed source locations are what was packed", "statement": "The line and the column of a source offset, and the start and the end of a position, are those that it was made of; offsets are ordered as their lines and columns are; the position between two positions reaches from the start of the one that comes first to the end of the other.", "quantifier": "all lines and columns, of any size", "why_tests_cant": "each has a packed and an unpacked representation, and they are mixed", "anchors": ["sources/dfmc/reader/range-source-locations.dylan: make-source-offset, source-offset-line, source-offset-column, <, =, range-source-offset-greater-than?, make-range-position, source-position-start-offset, source-position-end-offset", "sources/dfmc/reader/fragments.dylan: compute-position-between"]}
{"id": "C115", "title": "Names are read as one token", "statement": "A letter followed by characters of names, and a graphic character followed by such characters with a letter among them, is one name token, and with a colon after it one keyword token, if it is not followed by a character that can go on.", "quantifier": "every name, every source around it", "why_tests_cant": "names are of any length over a large alphabet", "anchors": ["sources/dfmc/reader/lexer.dylan: get-token", "sources/dfmc/reader/lexer-transitions.dylan: $initial-state"]}
{"id": "C116", "title": "Integer literals have the value that is written", "statement": "Digits, with single underscores between them and with an optional sign or a prefix for base 2, 8 or 16, are one token; its value is the number with these digits in this base, if it has 128 bits.", "quantifier": "every integer literal, every source around it", "why_tests_cant": "literals have any number of digits", "anchors": ["sources/dfmc/reader/lexer.dylan: parse-integer, parse-integer-literal", "sources/dfmc/reader/lexer-transitions.dylan: $initial-state"]}
{"id": "C117", "title": "Character literals have the value that is written", "statement": "A character between single quotes, written as itself or with an escape or as a hexadecimal code up to 255, is one token whose value is this character.", "quantifier": "every character literal, every source around it", "why_tests_cant": "codes can be written with any number of digits", "anchors": ["sources/dfmc/reader/lexer.dylan: make-character-literal, escape-character, hex-escape-character", "sources/dfmc/reader/lexer-transitions.dylan: $initial-state"]}
{"id": "C118", "title": "Strings on one line have the value that is written", "statement": "A string or a symbol between double quotes, its characters written as themselves or with escapes, is one token whose value is the string of these characters; so is a raw string, whose characters all stand for themselves; and every string of bytes can be written so.", "quantifier": "every string, every source around it", "why_tests_cant": "strings are of any length, with escapes anywhere", "anchors": ["sources/dfmc/reader/lexer.dylan: make-stringish-literal, make-raw-string-literal, extract-string-contents, decode-string", "sources/dfmc/reader/lexer-transitions.dylan: $initial-state"]}
{"id": "C119", "title": "Strings with three quotes or more end where they should and have their lines", "statement": "A string between n double quotes, n at least 3, ends with the first n unescaped quotes in a row. Its value is what is written in it; of a string over several lines it is the lines between the first and the last, without the indentation of the last line, with newlines between them, whichever line breaks the source has.", "quantifier": "every number of quotes, every text, indentation and line break, every source around it", "why_tests_cant": "runs of quotes of any length and lines of any number", "anchors": ["sources/dfmc/reader/lexer.dylan: make-stringish-literal, make-raw-string-literal, extract-string-contents, decode-string, increment-double-quote-start-count, increment-double-quote-end-count, reset-double-quote-end-count", "sources/dfmc/reader/lexer-transitions.dylan: $initial-state"]}
{"id": "C120", "title": "White space and comments are skipped", "statement": "White space, comments to the end of a line and delimited comments, which may contain comments, are skipped: the token that is read at their start is the one read after them, with the right line.", "quantifier": "every text of white space and comments, nested to any depth", "why_tests_cant": "comments nest to any depth", "anchors": ["sources/dfmc/reader/lexer.dylan: get-token, increment-comment-start-count, increment-comment-end-count", "sources/dfmc/reader/lexer-transitions.dylan: $initial-state"]}
{"id": "C121", "title": "Floating point literals have the value that is written", "statement": "A floating point literal is one token; its sign, its digits before and after the point, its exponent and its class are those that are written.", "quantifier": "every floating point literal, every source around it", "why_tests_cant": "literals have any number of digits", "anchors": ["sources/dfmc/reader/lexer.dylan: atof, parse-fp-literal", "sources/dfmc/reader/lexer-transitions.dylan: $initial-state"]}
{"id": "C122", "title": "A use clause makes visible what it says", "statement": "Through a use clause with import, exclude, rename, prefix and export options, a name of the used module is visible under exactly the local names that the options say, and passed on under exactly those that the export option lists; looking a local name up in the used module asks for a name that is visible under it, and does so whenever there is one.", "quantifier": "every use clause, every name on either side, every spelling of the names", "why_tests_cant": "the options combine freely, the two directions are computed separately, and the spelling of a symbol depends on what was read before", "anchors": ["sources/dfmc/namespace/filters.dylan: <filter>, ensure-valid-filter, compute-filter-maps, renaming-expander, unrenaming-expander, filter-name, unfilter-name, filter-exported-name"]}
{"id": "C123", "title": "A name in a module stands for the binding its definition says", "statement": "In a library whose module definitions give no cause for warnings, a name used in a module stands for the binding that the module imports under this name, through any chain of modules that pass it on, or, if it imports none, for the module's own; a module offers its users exactly what its definition exports. This does not depend on what was looked up before, nor on the order of tables.", "quantifier": "every library, every sequence of definitions and lookups, every order of tables", "why_tests_cant": "there are three caches per module, filled by lookups in other modules", "anchors": ["sources/dfmc/namespace/namespaces.dylan: compute-imports, update-exports!, define-name, lookup-imported-name, lookup-exported-name, lookup-name, exported-imports-table, make-exported-imports-table", "sources/dfmc/namespace/modules.dylan: untracked-lookup-binding-in, new-binding-in, define-and-install-module"]}
{"id": "C124", "title": "Module definitions are warned about when and only when they should be", "statement": "When a module is defined, there is a warning about a name imported with two origins, about a name both imported and exported or created, and about a used module that is not there, if and only if there is such a name or module.", "quantifier": "every library, every sequence of definitions and lookups before, every order of tables", "why_tests_cant": "clashes arise through any chain of modules and renamings", "anchors": ["sources/dfmc/namespace/namespaces.dylan: compute-imports, update-imports, update-exports!"]}
{"id": "C125", "title": "The namespaces that a namespace uses are found", "statement": "The walk over the namespaces that a namespace uses, directly or through others, ends and gives each of them once, every one before those it uses.", "quantifier": "every library", "why_tests_cant": "the graph of uses has any shape", "anchors": ["sources/dfmc/namespace/namespaces.dylan: all-used-namespaces, compute-all-used-namespaces"]}
{"id": "C126", "title": "The data of hash literals is delimited as written", "statement": "The data of a literal `#:name:{data}` with any of the seven kinds of delimiters is the text up to the first closing delimiter that is not escaped by a backslash, that of `#:name:data` the text up to the next white space, comma, semicolon or bracket; reading goes on right behind it, on the right line.", "quantifier": "every source, every data, every kind of delimiter", "why_tests_cant": "the data is arbitrary text, with newlines and escaped delimiters", "anchors": ["sources/dfmc/reader/lexer.dylan: make-hash-literal, delimiter-code?"]}
{"id": "C127", "title": "Control strings write what their directives say", "statement": "`format` writes the text of the control string as it is and, for each directive, what it shows of the next argument: the message, the object, the number in its radix without needless zeros, the output of the function, or a percent sign, flush right or left in the field asked for and never cut. Everything before a directive that is unknown or does not fit its argument is written before the error. No control string is accepted that is not made of text and directives.", "quantifier": "every control string, every list of arguments, every field width", "why_tests_cant": "the strings, widths and numbers are unbounded and the parser takes fields and directives apart", "anchors": ["sources/io/format.dylan: format, do-dispatch, parse-integer, format-integer", "documentation/source/library-reference/io/format.rst"]}
{"id": "C128", "title": "format-to-string accepts exactly the control strings of the DRM", "statement": "`format-to-string` of common-dylan gives a string exactly if the control string is made of text and known directives and there is an argument of the right class for each of them; the string is what they say. Otherwise it is an error, and the error is the first one from the left. What it accepts, `format` of io accepts as well and writes alike.", "quantifier": "every control string, every list of arguments", "why_tests_cant": "the strings and lists of arguments are unbounded, and there are as many errors as places in them", "anchors": ["sources/common-dylan/format.dylan: print-format, format-to-string, integer-to-string", "documentation/source/library-reference/common-dylan/simple-format.rst"]}
{"id": "C129", "title": "Printed characters, strings and symbols read back", "statement": "What `print` writes for a character, a byte string or a symbol is a literal that the reader reads as one token with the same value (for symbols, up to the case of letters). It has printing ASCII characters only. Different strings are printed differently.", "quantifier": "every character, every byte string, every symbol name, and any text around the literal", "why_tests_cant": "256 characters in any order and number, with escapes that depend on the kind of quote", "anchors": ["sources/io/print.dylan: print-object, write-char-maybe-escape, write-string-escaped", "sources/dfmc/reader/lexer.dylan: make-string-literal, make-character-literal"]}
{"id": "C130", "title": "Printed lists and vectors show what level and length allow", "statement": "`print` writes a list as `#(...)` with its last tail behind a dot, a vector as `#[...]`, the elements with commas between them, a number sign for each object deeper than `level:` and dots for the elements beyond `length:`. With both limits the size of the output is bounded, whatever the object; with none, different objects are printed differently.", "quantifier": "every nested list and vector, every level and length", "why_tests_cant": "the objects are of any size and nesting", "anchors": ["sources/io/print.dylan: print, maybe-print-object, print-object, print-list, print-items"]}
{"id": "C131", "title": "Circular printing ends and its references mean one object", "statement": "With `circle?: #t`, `print` comes to an end for every object, also one that holds itself. Tags are numbered from 0 in the order written; `#n#` always follows `#n#=`, and stands for the same object wherever it is written; no object has two tags. Different lists are printed differently.", "quantifier": "every heap of lists and vectors with sharing and cycles, every object in it, every level and length", "why_tests_cant": "cycles and sharing of any shape", "anchors": ["sources/io/print.dylan: print, start-circle-printing, maybe-print-object, output-print-reference, print-list, pprint-logical-block"]}
{"id": "C132", "title": "A macro pattern matches exactly the calls that are instances of it", "statement": "A rule of a macro matches a call iff the fragments of the call can be read as the pattern: literals and names in their places, parts between semicolons and commas in order, each variable standing for fragments its constraint allows, keyword variables for the first value given or the default. If there are several readings, the one is taken where wildcards stand for as few fragments as possible, the earlier the first; only variables of the pattern are bound. A pattern that does not match makes the next rule be tried; it never makes the compiler fail.", "quantifier": "every pattern, every sequence of fragments, every parser of constraints", "why_tests_cant": "patterns and calls are nested and of any length, and wildcards are found by search", "anchors": ["sources/dfmc/macro-expander/pattern-back-end.dylan: match-name, match-literal, match-body-part, match-list-part, match-spliced-name, match-property-list", "sources/dfmc/macro-expander/pattern-to-function.dylan: generate-body-pattern-function, generate-list-pattern-function, generate-pattern-element-function", "sources/dfmc/macro-expander/rewrite-rules.dylan: <rewrite-rule>"]}
{"id": "C133", "title": "A macro call expands to what its first matching rule says", "statement": "The expansion of a macro call is the template of the first rule the call is an instance of, with each variable standing for the fragments it was matched to, or, if there are auxiliary rules of its name, for their expansion of these; `...` stands for the expansion by the same set of rules. Separators before substitutions that stand for nothing are left out. A call has at most one expansion; a call that is refused has none; if it does not come to an end the compiler says so.", "quantifier": "every macro, every call, every parser of constraints", "why_tests_cant": "rules call one another to any depth, and patterns and templates are of any size", "anchors": ["sources/dfmc/macro-expander/pattern-to-function.dylan: generate-rules-function, generate-rule-function, generate-bound-name-aux-rule-rewrites-function", "sources/dfmc/macro-expander/template-function.dylan: generate-template-function, generate-template-elements-functions", "sources/dfmc/macro-expander/template-back-end.dylan: make-template, maybe-substitute-separator, empty-template-element?, substitute-sequence-separated, export-fragment-tokens", "sources/dfmc/macro-expander/rewrite-rules.dylan: <rewrite-rule>"]}
{"id": "C134", "title": "A constrained macro variable takes the longest phrase", "statement": "A variable such as `?e:expression`, `?v:variable` or `?b:body` takes the longest beginning of the fragments that is a phrase of its constraint, not going past a fragment that bounds it at the top level; what follows is left for the rest of the pattern. If no beginning is a phrase, it does not match. The search always ends.", "quantifier": "every grammar in which brackets come in pairs, every sequence of nested fragments, every bound", "why_tests_cant": "the parser is run again and again on shorter and shorter input", "anchors": ["sources/dfmc/macro-expander/constraint-parsing.dylan: parse-constraint, parse-bounded-constraint", "sources/dfmc/macro-expander/pattern-back-end.dylan: match-expression-constraint, match-variable-constraint, match-body-constraint", "sources/lib/parser-run-time/dispatch.dylan: run-parser"]}
{"id": "C135", "title": "Hash codes agree with the tests of tables", "statement": "Keys that the test of a table takes for the same have the same hash code at every moment: for object tables (`==` and object-hash), string tables (`=` and string-hash, also between byte and unicode strings) and the table of symbols (equality up to case). So each of these tables is a map for its test. Equal collections have the same collection-hash, whatever the order in which they are iterated over, and equal sequences the same sequence-hash. Every hash code is an <integer>; computing it does not overflow.", "quantifier": "every pair of keys, of any class and contents, every placement of the keys in memory at every time, every history of the table; every pair of collections", "why_tests_cant": "two equal keys that hash differently make an entry invisible only if their codes lead to different slots, for instance after a collection has moved them; tests with literals use the same object twice", "anchors": ["sources/dylan/hashing.dylan: object-hash, string-hash, case-insensitive-string-hash, collection-hash, sequence-hash, merge-hash-ids", "sources/dylan/comparison.dylan: ==", "sources/dylan/table.dylan: table-protocol", "sources/dylan/symbol-table.dylan: table-protocol", "sources/dylan/collection.dylan: ="]}
{"id": "C136", "title": "for loops mean what the reference manual says", "statement": "A `for` statement with any mixture of explicit, numeric and collection clauses, `while:`/`until:`, body and `finally` has the effects, the result and the errors that the nine steps of the Dylan Reference Manual give: expressions of the header are executed once and in order, clauses are tested in order and not past an exhausted one, all variables are stepped at once from the values of the round before, elements are bound freshly in each round and are not visible in `finally`. A loop from a to b by k executes its body for exactly a, a + k, ... as long as the bound is not passed.", "quantifier": "every list of clauses, every behaviour of the expressions (including errors and non-termination), every iteration protocol, every state, every number of rounds", "why_tests_cant": "loops combine clauses of three kinds, bounds in three directions, signs of increments that are known only at run time, end tests and early exits; the order of effects and the simultaneous stepping show only in programs made for it", "anchors": ["sources/dfmc/conversion/convert-loops.dylan: step-1 ... step-9, generate-step-1 ... generate-step-7, convert, build-for-statement", "sources/dfmc/c-back-end/c-emit-computation.dylan: emit-computation for <loop>, <loop-call>, <loop-merge>"]}
{"id": "C137", "title": "An array is one variable for every list of subscripts", "statement": "For an array made with given dimensions, `aref` and `aref-setter` with subscripts within the dimensions read and write one variable per list of subscripts, independent of all others; `element` and `element-setter` see the same variables numbered with the last subscript varying fastest; a wrong number of subscripts and subscripts out of bounds are errors that change nothing; no access leaves the storage of the array, and no index computation overflows. `row-major-index` is a bijection between the subscripts and the numbers below the size, and a shallow copy has the same dimensions and elements.", "quantifier": "every list of dimensions, every list of subscripts, every history of reads and writes", "why_tests_cant": "the space of dimensions and subscripts is unbounded, the checks are dropped in compiled code (`without-bounds-checks`), so that a wrong index is silent memory corruption rather than an error", "anchors": ["sources/dylan/array.dylan: row-major-index, general-row-major-index, two-row-major-index, aref, aref-setter, make, shallow-copy", "sources/dylan/multidimensional-array.dylan: compute-size-from-dimensions, compute-array-dimensions-and-size, element, element-setter, make", "sources/dylan/sequence.dylan: element-range-check", "sources/dylan/vector.dylan: row-major-index, aref, aref-setter"]}
{"id": "C138", "title": "An indenting stream indents each line", "statement": "Whatever is written to an indenting stream, with `write`, `write-element` and `new-line` in whatever pieces and with whatever changes of the indentation in between, the stream inside receives the same lines, where the white space at the beginning of a line is replaced by white space as wide as it, with tabs expanded, plus the indentation in force when its first other character was written; lines of white space only become empty; everything after the first other character of a line is passed unchanged. Tabs are used for the new white space exactly as far as the output tab width says.", "quantifier": "every text, every division of it into calls, every history of indentation changes, all tab widths", "why_tests_cant": "the stream keeps a column across calls and buffers parts of a string by positions; the outcome must not depend on where the text was cut", "anchors": ["sources/io/streams/indenting-streams.dylan: write, write-element, write-indent, new-line, indent"]}
{"id": "C139", "title": "Sharing common subexpressions changes nothing", "statement": "Compiling a function with common subexpressions shared gives a function that does the same as without: for all arguments and in every state of memory it ends in the same way, with the same value or exit, and leaves the same state; and no temporary is used on a path on which it has not been computed.", "quantifier": "every function body, with its branches, loops, blocks with exits and cleanups, nested in any way; every argument and state", "why_tests_cant": "the pass decides with tables of what was computed on the way to a place whether it may leave a computation out; only an argument about all paths through all programs shows that it is right", "anchors": ["sources/dfmc/optimization/cse.dylan: share-common-subexpressions, cse-walk-computation, intern-reusable-computation, reusable-computation?, equivalent-computation?, cse-lookup-reusable-if-test", "sources/dfmc/optimization/constant-folding.dylan: fold-if-merge!, constant-fold-if", "sources/dfmc/definitions/define-primitive.dylan: parse-primitive-adjectives", "sources/dfmc/modeling/raw-type-macros.dylan: &raw-type-accessors-definer"]}
{"id": "C140", "title": "Operations on constant machine words are folded to what they would return", "statement": "When the compiler replaces an operation on constant machine words (logical operations, shifts, bit fields, arithmetic with and without a check for overflow, comparisons) by a constant, running the operation would have returned that constant; in particular an operation that would signal overflow is never replaced.", "quantifier": "all operations that are folded and all constant arguments", "why_tests_cant": "there are more than thirty folders with four ways to extract operands and make results, each on 2^128 pairs of words; the errors are at the edges of the signed range", "anchors": ["sources/dfmc/modeling/machine-word-primitives.dylan: primitive-machine-word-logand ... primitive-machine-word-unsigned-shift-right", "sources/dfmc/modeling/machine-word-primitives-support.dylan: extract-mw-operand-unsigned, extract-mw-operand-signed, sign-extend, make-raw-literal-with-overflow", "sources/dfmc/modeling/primitive-macros.dylan: &machine-word-primitive-definer", "sources/dfmc/modeling/raw-types.dylan: make-raw-literal"]}
{"id": "C141", "title": "Simplified operations on machine words return what was written", "statement": "When the compiler simplifies an operation on machine words because of a constant argument and of the operations that made its other arguments, the program returns the same word as the operations that were written, for all values of the variables, and signals overflow where they do.", "quantifier": "all combinations of operations and constants that are simplified, and all words", "why_tests_cant": "there are a dozen rules, each with a test on constants; a wrong test shows only for constants and words that differ in particular bits", "anchors": ["sources/dfmc/optimization/calls.dylan: do-optimize-machine-word-binary-noop, do-optimize-machine-word-partial-fold-binary-op, do-optimize-machine-word-fold-tag/untag-ops, obsolete-right-shifted-logand?, do-optimize-machine-word-shifts, do-optimize-primitive-machine-word-bit-field-extract"]}
{"id": "C142", "title": "Machine words are read back from the strings they are written to", "statement": "machine-word-to-string writes the prefix and sixteen hexadecimal digits, and string-to-machine-word reads the same word back, with either prefix or none, after blanks and before anything that is not a digit; it returns the position after the digits, and a text without a digit gives the default or an error, never a word.", "quantifier": "all words, prefixes, strings and bounds", "why_tests_cant": "the words are 2^64 and the two halves are converted apart, so errors show only for words with particular zeros; the texts are unbounded", "anchors": ["sources/common-dylan/format.dylan: machine-word-to-string, string-to-machine-word"]}
{"id": "C143", "title": "Property lists map indicators to values", "statement": "get-property returns the value that put-property! last gave to an indicator, or the default after remove-property!, which returns the old value; no function changes other properties or objects that are not part of the property list, remove-keywords returns just the properties that are not removed, and no function accesses a vector outside its bounds; for lists and for vectors.", "quantifier": "all property lists, indicators, values and keywords", "why_tests_cant": "the functions turn bounds checks off and change sequences in place, and the errors depend on where an indicator is and how often it occurs", "anchors": ["sources/collections/plists.dylan: get-property, do-put-property!, keyword-sequence, value-sequence, do-remove-property!, remove-keywords", "sources/common-dylan/common-extensions.dylan: concatenate!"]}
{"id": "C144", "title": "Pseudo-random numbers", "statement": "random(range) always returns, a number that is at least zero and less than the range, no number of the range being preferred or impossible; a range that is not positive is refused, the same seed gives the same numbers, and a generator does not run into a constant sequence.", "quantifier": "all seeds, ranges and histories of calls", "why_tests_cant": "the state of a generator has 54 words and its history is unbounded; a bias or a gap is not seen in single numbers", "anchors": ["sources/common-dylan/random.dylan: initialize, lcg-rand, random-29, random"]}
{"id": "C145", "title": "Bitcode files contain what was written", "statement": "A file written with the bitcode writer is a file in LLVM's bitcode format, and a reader finds in it the nested blocks with their ids and the records with their codes and operands that were written, in their order, whether or not they were written with abbreviations; the lengths of the blocks are right, and signed numbers keep their values.", "quantifier": "all sequences of records, definitions of abbreviations and nested blocks, all operands", "why_tests_cant": "where a number ends in the file depends on all numbers before it, the length of a block is patched into bytes that were written before, and an abbreviation that is read differently from what the writer assumes shifts everything after it", "anchors": ["sources/lib/llvm/bitcode.dylan: bitcode-flush, write-fixed, write-abbrev-id, write-vbr, write-vbr-aux, as-signed-vbr, write-alignword, write-char6, write-blob, close, with-block-output, encode-abbrev-op, write-abbrev-definition, write-record, write-abbrev-record"]}
{"id": "C146", "title": "File name patterns match exactly the strings they stand for", "statement": "For every list of patterns that are well written, making a matcher ends, and the matcher answers true for exactly those strings that one of the patterns stands for: `?` for any character, `*` for any string, `[..]` and `[^..]` for the characters in or not in a set of characters and ranges, a backslash for the character after it, and all other characters for themselves.  A pattern is refused exactly when it is not well written.", "quantifier": "all lists of patterns and all strings", "why_tests_cant": "the automaton is built from sets of positions whose number grows with the pattern, and whether it takes a string depends on all ways to split the string among the parts of all patterns", "anchors": ["sources/lib/jam/jam-glob.dylan: parse-glob-pattern, glob-match-function", "sources/lib/jam/regular-expression.dylan: initialize, regular-expression-dfa, table-protocol, do-regular-expression-dfa-state-position", "sources/lib/jam/jam-regular-expression.dylan: <match-accept-regular-expression>, do-regular-expression-dfa-state-position", "sources/dylan/sequence.dylan: union"]}
{"id": "C147", "title": "The header of a source file is read as it is written", "statement": "For every source file, the header ends at the first blank line or at the end of the file; each keyword has the strings of its lines and of the indented lines after them, in their order and without spaces and tabs around them, whatever characters end the lines; the number of lines and the position returned are those where the source begins.  A header is refused exactly if a line that should have a keyword has no colon, or if module or language occur twice; the module and the language are those that the header gives.", "quantifier": "all source files", "why_tests_cant": "the reader looks one character ahead to find continuation lines and stops in the middle of the stream, and whether the rest of the file is read as source or as header depends on every line before it", "anchors": ["sources/lib/source-records/header-reader.dylan: read-file-header, read-header-from-stream, read-file-header-component, parse-header-keyword-line, parse-header-continuation-line, header-end-marker-line?", "sources/lib/source-records/flat-file-source-records.dylan: cache-file-header-data", "sources/io/streams/convenience.dylan: read-line"]}
{"id": "C148", "title": "Splitting a command line gives back the arguments that were quoted", "statement": "For every list of arguments, if each is quoted and they are put on a line with any white space before, between and after them, then splitting the line gives exactly these arguments, in order: no argument is lost, split, joined with another or changed, whatever spaces, quotation marks and backslashes are in it, and also if it is empty.  This is so on Unix and on Windows.", "quantifier": "all lists of arguments and all white space around them", "why_tests_cant": "what a quotation mark means depends on how many backslashes are before it and on the quotation marks before that, so that there are infinitely many forms; the test of the function in the repository is empty", "anchors": ["sources/lib/jam/jam-quote-unix.dylan: quote-argument", "sources/lib/jam/jam-quote-win32.dylan: quote-argument", "sources/common-dylan/unix-common-extensions.dylan: tokenize-command-line", "sources/common-dylan/win32-common-extensions.dylan: tokenize-command-line"]}
{"id": "C149", "title": "A quoted argument reaches a program as it is", "statement": "For every list of arguments, the shell reads the quoted arguments as exactly these words: no character in an argument is taken as an operator, an expansion, a pattern, a comment or the end of the command.", "quantifier": "all lists of arguments", "why_tests_cant": "an argument can have any of the characters that mean something to the shell, in any combination and at any place", "anchors": ["sources/lib/jam/jam-quote-unix.dylan: quote-argument", "sources/lib/jam/jam-quote-win32.dylan: quote-argument"]}
{"id": "C150", "title": "The thread pool starts every task once, in order, and only while it runs", "statement": "For every history of starting and stopping a pool and adding tasks to it, with any number of threads and in every interleaving: the tasks are started in the order in which they were added, none is started twice or lost, and none is started while the pool is not running.  If tasks end and no more are added, then all that were added are run in a bounded number of steps.  A thread does not sleep while a task waits.", "quantifier": "all histories of calls, numbers of threads, interleavings and wake-ups", "why_tests_cant": "whether a task is forgotten depends on when a thread is woken and when it gets the lock, and such schedules are rare", "anchors": ["sources/lib/jam/thread-pool.dylan: thread-pool-start, thread-pool-stop, thread-pool-add"]}
{"id": "C151", "title": "A stopped thread pool runs nothing, and a pool never runs more tasks than its size", "statement": "For every history, when thread-pool-stop has returned, no task of the pool is running and its threads have ended; and at no time more tasks are running than the size of the pool.", "quantifier": "all histories of calls, sizes and interleavings", "why_tests_cant": "it fails only if a task is longer than the others at the time of the stop", "anchors": ["sources/lib/jam/thread-pool.dylan: thread-pool-stop, thread-pool-start", "sources/dylan/thread.dylan: join-thread"]}
{"id": "C152", "title": "A blocking queue returns every element once, in order, and wakes up those who wait", "statement": "For every history of a blocking queue, with any number of threads that push and that pop, the elements are returned in the order in which they were pushed, each once; and no thread sleeps while there is an element for which no other thread has been woken.", "quantifier": "all histories, numbers of threads, interleavings and wake-ups", "why_tests_cant": "a wake-up is lost only in rare schedules", "anchors": ["sources/lib/jam/blocking-deque.dylan: push-last, blocking-pop"]}
{"id": "C153", "title": "A build runs each command once, after all commands it depends on", "statement": "For every graph of commands, every interleaving and every outcome of the commands: a command is begun only after all commands that it depends on, directly or not, are complete, and no command is begun twice.  After a failure no command that depends on the failed one is begun and the build is not successful; without failures the build ends after as many steps as there are commands, with all of them complete, and is successful.  A failure of a command that is to be ignored does not matter.", "quantifier": "all graphs of commands, interleavings and outcomes", "why_tests_cant": "commands run in parallel and complete in any order, and what is begun next depends on counts that all of them change", "anchors": ["sources/lib/jam/jam-target-build.dylan: jam-target-build, action-command-add-successor"]}
{"id": "C154", "title": "The build tool builds what is out of date, and nothing else", "statement": "For every project whose targets do not depend on themselves: a target is built if one of the targets that it depends on is built, if its file does not exist, or if a file that it depends on, directly or not, is newer.  If every file exists and is not older than the files that it depends on, nothing is built.  A target is built only for a reason: a missing file, a request, a dependency that is built, or a newer dependency.  What depends on a file that cannot be found is not built.", "quantifier": "all projects, dates and chains of dependencies", "why_tests_cant": "whether a file at the top is built depends on dates and statuses that are passed on through chains of any length and shape", "anchors": ["sources/lib/jam/jam-target-build.dylan: jam-target-build", "sources/lib/jam/jam-target.dylan: <jam-target>"]}
{"id": "C155", "title": "Lists with a pointer to the last pair are deques", "statement": "For every sequence of operations on any number of these lists (pushing and popping at both ends, appending one list to another, size, reading and replacing elements): every operation returns what it would for plain sequences, and is an error exactly if there is no such element; operations on one list do not change the others.", "quantifier": "all sequences of operations on any number of lists", "why_tests_cant": "the lists are chains of pairs that are changed in place, and whether a pointer is stale depends on all operations before", "anchors": ["sources/lib/t-lists/t-lists.dylan: <t-list>, push, push-last, pop, pop-last, append!, element, element-setter, last, last-setter"]}
{"id": "C156", "title": "The Common Lisp sequence functions do what their Common Lisp counterparts do", "statement": "For every sequence, every predicate and every start and end: cl-position returns the first (from the end the last) index between them at which the predicate holds; cl-count counts the elements between them for which it holds; cl-substitute! replaces exactly the first (last) count: of them and nothing else; cl-remove-duplicates! keeps exactly the elements between them that have no duplicate after (before) them, and all elements outside; cl-remove! removes exactly the first (last) count: elements for which the predicate holds and keeps all others in their order.", "quantifier": "all sequences, predicates, bounds, counts and directions", "why_tests_cant": "the functions change a sequence while they read it, at two indices that move at different speeds in either direction", "anchors": ["sources/lib/cl/cl-sequences.dylan: cl-position, cl-count, cl-substitute!, cl-remove!, cl-remove-duplicates!"]}
{"id": "C157", "title": "An argument with variables expands to all combinations of their values", "statement": "For every argument of a build rule whose variables are closed and have no parentheses in them but those of other variables, however they are nested, and all values of variables: it expands to all ways to choose a value for each variable, those of the first one changing slowest, with the text between them as it is; the text in parentheses is expanded first in the same way; a colon or bracket in it begins a modifier only if it was written there and does not come from a value; an argument without variables stands for itself, one with a variable that has no value expands to nothing, and a list expands to the expansions of its members in order.", "quantifier": "all arguments, depths of nesting and values of variables", "why_tests_cant": "variables can be nested in any depth, and their values can have any number of members and contain any characters", "anchors": ["sources/lib/jam/jam-evaluator.dylan: jam-expand-arg, jam-expand-arg-aux, jam-expand-arg-product, jam-expand-list"]}
{"id": "C158", "title": "Marks of target names come off and go on without loss, and strings are split into exactly their words", "statement": "For every target name: the mark before it (text in angle brackets at its beginning, up to the first closing bracket) and the name without it make up the name; a name without such text has no mark; a name that gets the mark of another name has that mark, and taken off it leaves the name. For all strings and delimiter characters, the split rule returns, in order, the longest pieces of each string without delimiters, none empty and none lost, and never fails; so does the split of an environment variable that holds a list, and a list of non-empty words without delimiters is read back as it was written.", "quantifier": "all names, strings, lists of delimiter characters and values of variables", "why_tests_cant": "a unit test fixes a few names and strings; delimiters at the ends and next to each other, nested brackets and brackets without partner can be combined without bound", "anchors": ["sources/lib/jam/jam-grist.dylan: extract-grist, strip-grist, add-grist", "sources/lib/jam/jam-split.dylan: jam-builtin-split", "sources/system/tokenize-variable.dylan: tokenize-environment-variable"]}
{"id": "C159", "title": "A selection in brackets gives the members with the numbers written there", "statement": "For every variable of a build rule, whatever its value, and all numbers: a number in brackets selects the member with that number, counted from one; a number and a dash select that member and all after it; two numbers with a dash between them select the members from the first to the second, or to the last one if the second number is too large; a first number that no member has selects nothing; modifiers after the brackets get just the selected members, and begin after the colon.", "quantifier": "all values of variables, numbers that fit in an integer, ways to write them, and texts before and after the selection", "why_tests_cant": "values have any number of members, and numbers any number of digits with zeros before them; each combination of form, bounds and modifiers is a case", "anchors": ["sources/lib/jam/jam-evaluator.dylan: jam-expand-arg-bracket"]}
{"id": "C160", "title": "Modifiers of a variable apply from left to right to every member", "statement": "For every list of modifiers after a colon in a variable of a build rule, and every value: each one applies to all members in the order in which they are written, with its replacement as it is written up to the next colon; a colon that comes from the value of another variable does not end a replacement; a join gives one member with all members in order and the joiner between them, and none if there are none; a default applies just if there are no members. A modifier that sets the mark of names gives every name that mark, written with or without brackets, and leaves the rest of the name.", "quantifier": "all lists of modifiers, replacements, marked characters, values and names", "why_tests_cant": "modifiers can be combined in any number and order, and replacements can contain any characters", "anchors": ["sources/lib/jam/jam-evaluator.dylan: jam-expand-arg-colon"]}
{"id": "C161", "title": "The words of a build file are read as they are written", "statement": "For every build file: blanks and comments separate words and are passed over; a word is read as the characters in it, with text in quotes and characters after backslashes as they are, and every text can be written in quotes and read back; a word of plain characters is punctuation or a keyword if it is in the table, and with quotes, backslashes or a number sign in it it never is; the string of an action goes up to the brace that closes it, with pairs of braces in it; and line numbers count all ends of lines, a carriage return and newline as one.", "quantifier": "all files, words, ways to write them, comments, nestings of braces and line ends", "why_tests_cant": "files have any length, and quotes, backslashes, comments and line ends can be combined in any way and stand at the end", "anchors": ["sources/lib/jam/jam-reader.dylan: jam-read, lexer, return-token, $jam-tokens"]}
{"id": "C162", "title": "Local variables and parameters of rules are restored however a block or rule ends", "statement": "For every block and every rule of a build file, whatever statements are in it, and all variables: the statements see the local variables or parameters with the values given, by position for parameters, and all other variables as outside; when the block or rule ends, by its last statement, by a return, break or continue or by an error, its variables are as they were before and all others as the statements left them; a return ends the rule with its values, and other conditions go on outwards. A loop runs its statements once for each member in order until a break, and an assignment changes just the variables it names. A statement that is run on a target sees the variables set on the target with their values there; when it ends, in any of these ways, those variables are outside as they were before and on the target as the statement left them, and what it assigned to variables on the target stays.", "quantifier": "all blocks, rules, targets, arguments, bodies, ways to end and variables", "why_tests_cant": "bodies can be any statements, nested and recursive, and end in many ways", "anchors": ["sources/lib/jam/jam-evaluator.dylan: evaluate-statement", "sources/lib/jam/jam-state.dylan: jam-variable-setter", "sources/lib/jam/jam-target.dylan: do-with-jam-target"]}
