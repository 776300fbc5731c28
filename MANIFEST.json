{
 "claims": [
  {
   "property": "C01",
   "status": "proved",
   "theorems": [
    "Verif.Sort.stable_sort_correct",
    "Verif.Sort.stable_sort_range"
   ],
   "note": "all vectors, subranges and strict weak orders"
  },
  {
   "property": "C02",
   "status": "proved",
   "theorems": [
    "Verif.Sort.default_sort_correct",
    "Verif.Sort.default_sort_range"
   ],
   "note": "all vectors, subranges and strict weak orders; includes termination and in-bounds access"
  },
  {
   "property": "C03",
   "status": "partial",
   "theorems": [
    "Verif.Sort.stable_sort_safe_any_test",
    "Verif.Sort.default_sort_safe_partial",
    "Verif.Sort.default_sort_unsafe_for_nonstrict_test"
   ],
   "note": "full for the stable sort; the default sort violates it for a non-strict test (counterexample theorem), and satisfies it for every strict weak order"
  },
  {
   "property": "C04",
   "status": "proved",
   "theorems": [
    "Verif.Deque.deque_is_sequence",
    "Verif.Deque.as_deque_is_sequence"
   ],
   "note": "all histories from make or as, any element type; limited element types (check-type) not modelled"
  },
  {
   "property": "C05",
   "status": "proved",
   "theorems": [
    "Verif.Deque.deque_is_sequence",
    "Verif.Deque.as_deque_is_sequence"
   ],
   "note": "size-setter, remove! (with and without count, any test) and reverse! are operations of the histories"
  },
  {
   "property": "C06",
   "status": "partial",
   "theorems": [
    "Verif.Deque.forward_iteration_correct_partial",
    "Verif.Deque.backward_iteration_violated",
    "Verif.Deque.backward_iteration_wrong_elements",
    "Verif.Deque.backward_iteration_never_correct"
   ],
   "note": "forward proved for every reachable deque; backward violated by the code for every non-empty deque (proved)"
  },
  {
   "property": "C07",
   "status": "proved",
   "theorems": [
    "Verif.Table.table_is_map",
    "Verif.Table.table_lookup",
    "Verif.Table.table_size"
   ],
   "note": "Every history on a new table, including iterations, stores through them and errors, with hash codes changing at arbitrary times, shows what a map would show.  Single thread, strong tables with values."
  },
  {
   "property": "C08",
   "status": "partial",
   "theorems": [
    "Verif.Table.table_probing_ends",
    "Verif.Table.table_operations_end_partial",
    "Verif.Table.table_reads_do_not_fail",
    "Verif.Table.table_operations_end_violated"
   ],
   "note": "No probe sequence goes on for ever.  The operations end once the collector is quiet and as long as no store has failed; after a store that failed for size, lookups of present keys never end, which is proved."
  },
  {
   "property": "C09",
   "status": "proved",
   "theorems": [
    "Verif.Table.iteration_enumerates",
    "Verif.Table.iteration_ends",
    "Verif.Table.iteration_misses_none"
   ],
   "note": "Whole iterations after any history, with read-only operations and collections in between; with stores in between no key is visited twice or missed."
  },
  {
   "property": "C10",
   "status": "partial",
   "theorems": [
    "Verif.Range.make_infinite",
    "Verif.Range.make_size",
    "Verif.Range.make_to_iff",
    "Verif.Range.make_below_iff",
    "Verif.Range.make_above_iff",
    "Verif.Range.make_to_size",
    "Verif.Range.make_constant",
    "Verif.Range.make_violated",
    "Verif.Range.rejects_negative_partial",
    "Verif.Range.rejects_negative_violated",
    "Verif.Range.element_default",
    "Verif.Range.findKey_partial",
    "Verif.Range.member_partial",
    "Verif.Range.member_violated",
    "Verif.Range.isEmpty_partial",
    "Verif.Range.last_exact"
   ],
   "note": "exact characterisation of when make is right for each keyword; fails for bounds the steps jump over, bounds before the start, to: together with below:, negative keys of constant and unbounded ranges, constant ranges of size 0"
  },
  {
   "property": "C11",
   "status": "partial",
   "theorems": [
    "Verif.Range.intersection_partial",
    "Verif.Range.intersection_violated",
    "Verif.Range.gcdI_exact"
   ],
   "note": "proved for all ranges except two unbounded descending ranges with different steps, where it fails"
  },
  {
   "property": "C12",
   "status": "partial",
   "theorems": [
    "Verif.Range.reverse!_exact",
    "Verif.Range.reverse!_infinite",
    "Verif.Range.reverse_partial",
    "Verif.Range.copySequence_partial",
    "Verif.Range.copySequence_infinite",
    "Verif.Range.copySequence_violated",
    "Verif.Range.add_exact",
    "Verif.Range.remove_partial",
    "Verif.Range.remove_violated"
   ],
   "note": "remove! of an element in the middle, on constant ranges, and copying from the end fail"
  },
  {
   "property": "C13",
   "status": "proved",
   "theorems": [
    "Verif.Class.cpl_sound",
    "Verif.Class.cpl_monotone",
    "Verif.Class.make_inconsistent_iff",
    "Verif.Class.make_primaries_iff",
    "Verif.Class.make_succeeds_iff",
    "Verif.Class.load_errors",
    "Verif.Class.cpl_stable",
    "Verif.Class.compiler_agrees"
   ],
   "note": "for every history of run-time class creation and library loading"
  },
  {
   "property": "C14",
   "status": "partial",
   "theorems": [
    "Verif.Class.subclass_iff_partial",
    "Verif.Class.subclass_iff_rooted",
    "Verif.Class.subclass_object_violated",
    "Verif.Class.instance_iff"
   ],
   "note": "exact for every superclass but <object>, and for <object> too if every class definition names a superclass; a class made with no superclasses breaks it, which is proved.  All five kinds of instance? code; masks under distinct subtype bits."
  },
  {
   "property": "C15",
   "status": "partial",
   "theorems": [
    "Verif.Integer.plus_exact",
    "Verif.Integer.minus_exact",
    "Verif.Integer.times_exact",
    "Verif.Integer.negative_exact",
    "Verif.Integer.abs_exact",
    "Verif.Integer.tag_injective",
    "Verif.Integer.c_back_end_no_overflow_signal"
   ],
   "note": "complete for the LLVM back end on 64-bit targets; the C back end violates it (undefined behaviour instead of a signal)"
  },
  {
   "property": "C16",
   "status": "partial",
   "theorems": [
    "Verif.Integer.floor_exact",
    "Verif.Integer.ceiling_exact",
    "Verif.Integer.truncate_exact",
    "Verif.Integer.modulo_exact",
    "Verif.Integer.remainder_exact",
    "Verif.Integer.division_exceptions",
    "Verif.Integer.round_exact_partial",
    "Verif.Integer.round_wrong",
    "Verif.Integer.round_wrong_examples"
   ],
   "note": "floor/, ceiling/, truncate/, modulo, remainder complete; round/ proved wrong on exactly the pairs RoundBad and right on all others"
  },
  {
   "property": "C17",
   "status": "partial",
   "theorems": [
    "Verif.Integer.gcd_partial",
    "Verif.Integer.gcd_violated",
    "Verif.Integer.lcm_partial",
    "Verif.Integer.lcm_violated"
   ],
   "note": "violated by the code for zero/equal negative arguments and $minimum-integer (gcd), negative arguments and two zeros (lcm); proved elsewhere, with termination"
  },
  {
   "property": "C18",
   "status": "partial",
   "theorems": [
    "Verif.Integer.power_exact_partial",
    "Verif.Integer.power_violated"
   ],
   "note": "exact-or-overflow proved for all but three argument shapes, where the code signals overflow for a representable result"
  },
  {
   "property": "C19",
   "status": "partial",
   "theorems": [
    "Verif.Integer.logior_exact",
    "Verif.Integer.logand_exact",
    "Verif.Integer.logxor_exact",
    "Verif.Integer.lognot_exact",
    "Verif.Integer.ash_exact_partial",
    "Verif.Integer.ash_violated",
    "Verif.Integer.logbit_exact_partial",
    "Verif.Integer.logbit_violated",
    "Verif.Integer.logbit_deposit_exact_partial",
    "Verif.Integer.bit_field_extract_exact_partial",
    "Verif.Integer.bit_field_extract_violated",
    "Verif.Integer.bit_field_deposit_exact_partial",
    "Verif.Integer.bit_field_deposit_violated"
   ],
   "note": "complete for logior/logand/logxor/lognot; the others are proved up to the bit positions where the code is wrong or undefined (counterexample theorems)"
  },
  {
   "property": "C20",
   "status": "partial",
   "theorems": [
    "Verif.MachineWord.c_multiply_partial",
    "Verif.MachineWord.c_multiply_violated",
    "Verif.MachineWord.c_divide_violated",
    "Verif.MachineWord.c_unsigned_divide_partial",
    "Verif.MachineWord.c_multiply_flag_violated",
    "Verif.MachineWord.c_multiply_with_overflow_violated"
   ],
   "note": "the C run-time violates it: multiply loses the middle carry (proved wrong exactly on those operands), division ignores half of each word, overflow flags are wrong"
  },
  {
   "property": "C21",
   "status": "proved",
   "theorems": [
    "Verif.HeapTable.table_is_finite_map",
    "Verif.HeapTable.spec_deterministic"
   ],
   "note": "all histories, all power-of-two initial lengths (the only lengths callers use; create_needs_power_of_two shows the precondition is needed); allocation failure included"
  },
  {
   "property": "C22",
   "status": "partial",
   "theorems": [
    "Verif.Mangle.demangle_ends",
    "Verif.Mangle.demangle_safe_partial",
    "Verif.Mangle.demangle_safe_violated_index",
    "Verif.Mangle.demangle_safe_violated_read",
    "Verif.Mangle.demangle_safe_violated_write",
    "Verif.Mangle.stack_walker_violated"
   ],
   "note": "safe for sources without bytes above 127 (if char is signed), not ending in K, and without M or with a large destination; false for the others"
  },
  {
   "property": "C23",
   "status": "proved",
   "theorems": [
    "Verif.Mangle.demangle_mangle",
    "Verif.Mangle.mangle_injective",
    "Verif.Mangle.identifiers_ordinary",
    "Verif.Mangle.c_demangle_mangle",
    "Verif.Mangle.c_demangle_entry_point",
    "Verif.Mangle.c_demangle_method_partial",
    "Verif.Mangle.c_demangle_comma_refused"
   ],
   "note": "proved for the Dylan demangler on all byte strings, for the C demangler on all names without a comma, which no Dylan name has; names are lower-cased before mangling"
  },
  {
   "property": "C24",
   "status": "partial",
   "theorems": [
    "Verif.Threads.SimpleLock.simpleLock_refines",
    "Verif.Threads.SimpleLock.simpleLock_exclusive",
    "Verif.Threads.SimpleLock.simpleLock_claim_only_when_free",
    "Verif.Threads.SimpleLock.simpleLock_owned_sound",
    "Verif.Threads.SimpleLock.simpleLock_owned_exact_partial",
    "Verif.Threads.SimpleLock.simpleLock_failed_release_violated",
    "Verif.Threads.SimpleLock.simpleLock_notification_violated"
   ],
   "note": "exclusion and soundness proved for every execution; owned? is wrong after a failed release by another thread and after a notification wait (counterexample executions)"
  },
  {
   "property": "C25",
   "status": "partial",
   "theorems": [
    "Verif.Threads.RecursiveLock.recursiveLock_refines",
    "Verif.Threads.RecursiveLock.outstanding_eq",
    "Verif.Threads.RecursiveLock.recursiveLock_all_released",
    "Verif.Threads.RecursiveLock.recursiveLock_exclusive",
    "Verif.Threads.RecursiveLock.recursiveLock_owned_complete",
    "Verif.Threads.RecursiveLock.recursiveLock_owned_exact_partial",
    "Verif.Threads.RecursiveLock.recursiveLock_owned_violated"
   ],
   "note": "exclusion and counting proved for every execution; owned? can answer true for a thread that has released, while another thread is claiming (counterexample execution)"
  },
  {
   "property": "C26",
   "status": "partial",
   "theorems": [
    "Verif.Threads.Semaphore.posix_counts",
    "Verif.Threads.Semaphore.posix_waits_le",
    "Verif.Threads.Semaphore.posix_usable",
    "Verif.Threads.Semaphore.posix_maximum_violated",
    "Verif.Threads.Semaphore.emulated_waits_le",
    "Verif.Threads.Semaphore.emulated_counts",
    "Verif.Threads.Semaphore.emulated_failure_justified",
    "Verif.Threads.Semaphore.emulated_usable_partial",
    "Verif.Threads.Semaphore.emulated_wedged_violated"
   ],
   "note": "counting proved for both implementations; the POSIX one ignores the maximum count, the emulation keeps its mutex after a refused release (counterexample executions)"
  },
  {
   "property": "C27",
   "status": "partial",
   "theorems": [
    "Verif.Threads.Join.join_at_most_once",
    "Verif.Threads.Join.join_only_completed",
    "Verif.Threads.Join.join_duplicate_fails",
    "Verif.Threads.Join.join_possible_partial",
    "Verif.Threads.Join.join_failure_justified_partial",
    "Verif.Threads.Join.join_wedged_violated",
    "Verif.Threads.Join.join_repeated_violated"
   ],
   "note": "at-most-once, only completed threads and duplicate rejection proved for every execution; a refused multiple join keeps the lock, and a repeated argument spoils the flags (counterexample executions)"
  },
  {
   "property": "C28",
   "status": "partial",
   "theorems": [
    "Verif.Threads.Tlv.tlv_reads_exact_partial",
    "Verif.Threads.Tlv.tlv_allocation_fresh_partial",
    "Verif.Threads.Tlv.tlv_in_bounds_partial",
    "Verif.Threads.Tlv.tlv_removed_vector_violated"
   ],
   "note": "proved for every execution of fewer than two million threads in which the end of a thread takes the list lock; the code does not take it there, and tlv_removed_vector_violated shows the resulting access to a removed vector"
  },
  {
   "property": "C29",
   "status": "partial",
   "theorems": [
    "Verif.Types.subtype_sound_partial",
    "Verif.Types.subtype_sound_one_kind_partial",
    "Verif.Types.subtype_sound_noColl_partial",
    "Verif.Types.subtype_sound_violated_subclass",
    "Verif.Types.subtype_sound_violated_inverted",
    "Verif.Types.subtype_sound_violated_dimensions"
   ],
   "note": "proved for all types, limited collections and functions included, except subclass(<class>), inverted limited integers and dimensions of mixed rank, where it fails"
  },
  {
   "property": "C30",
   "status": "partial",
   "theorems": [
    "Verif.Types.subtype_refl_partial",
    "Verif.Types.subtype_trans_partial",
    "Verif.Types.subtype_answers_one_kind",
    "Verif.Types.subtype_preorder_one_kind_partial",
    "Verif.Types.subtype_refl_violated_error",
    "Verif.Types.subtype_refl_violated_function",
    "Verif.Types.subtype_trans_violated"
   ],
   "note": "proved up to errors, and outright where only one of the kinds limited integer, subclass, limited function occurs; fails for a union of two of these kinds, for limited functions and for subclass(<class>)"
  },
  {
   "property": "C31",
   "status": "partial",
   "theorems": [
    "Verif.Types.limited_integer_instance_partial",
    "Verif.Types.limited_integer_instance_violated",
    "Verif.Types.limited_integer_inverted",
    "Verif.Types.limited_integer_only_integers"
   ],
   "note": "exact for min <= max or a single bound; for min > max the test is characterised and differs"
  },
  {
   "property": "C32",
   "status": "partial",
   "theorems": [
    "Verif.Types.disjoint_sound_partial",
    "Verif.Types.disjoint_sound_violated_class",
    "Verif.Types.disjoint_sound_violated_collections",
    "Verif.Types.disjoint_sound_violated_function",
    "Verif.Types.disjoint_error"
   ],
   "note": "proved except for limited collection types against classes or each other, and limited functions; assumes the primary and known-joint facts kept by class creation"
  },
  {
   "property": "C33",
   "status": "proved",
   "theorems": [
    "Verif.Integer.comparison_exact",
    "Verif.Integer.tag_injective"
   ],
   "note": ""
  },
  {
   "property": "C34",
   "status": "proved",
   "theorems": [
    "Verif.Integer.conversion_exact",
    "Verif.Integer.is_integer_exact"
   ],
   "note": ""
  },
  {
   "property": "C35",
   "status": "partial",
   "theorems": [
    "Verif.Integer.lsh_exact_partial"
   ],
   "note": "missing only the shift count $minimum-integer, whose negation overflows"
  },
  {
   "property": "C36",
   "status": "proved",
   "theorems": [
    "Verif.MachineWord.llvm_multiply_exact",
    "Verif.MachineWord.llvm_unsigned_multiply_exact",
    "Verif.MachineWord.llvm_double_truncate_exact",
    "Verif.MachineWord.llvm_double_floor_exact",
    "Verif.MachineWord.llvm_double_ceiling_exact",
    "Verif.MachineWord.llvm_unsigned_double_divide_exact",
    "Verif.MachineWord.llvm_double_divide_truncates"
   ],
   "note": ""
  },
  {
   "property": "C37",
   "status": "partial",
   "theorems": [
    "Verif.MachineWord.c_add_flag_exact",
    "Verif.MachineWord.c_subtract_flag_exact",
    "Verif.MachineWord.c_carry_exact",
    "Verif.MachineWord.c_borrow_exact",
    "Verif.MachineWord.c_negate_flag_partial",
    "Verif.MachineWord.c_negate_flag_violated",
    "Verif.MachineWord.shift_left_flag_violated"
   ],
   "note": "add, subtract, carry, borrow proved; negate/abs undefined at the most negative word; shift-left flag never set in either back end"
  },
  {
   "property": "C38",
   "status": "partial",
   "theorems": [
    "Verif.MachineWord.rotate_exact_partial",
    "Verif.MachineWord.rotate_violated",
    "Verif.MachineWord.llvm_double_shift_exact",
    "Verif.MachineWord.c_double_shift_partial",
    "Verif.MachineWord.c_double_shift_violated",
    "Verif.MachineWord.llvm_unsigned_shift_left_exact"
   ],
   "note": "complete for LLVM double shifts; rotation and the C double shifts are undefined for count 0"
  },
  {
   "property": "C39",
   "status": "partial",
   "theorems": [
    "Verif.MachineWord.wrap_abstract_exact",
    "Verif.MachineWord.llvm_wrap_unsigned_exact",
    "Verif.MachineWord.c_wrap_unsigned_partial",
    "Verif.MachineWord.c_wrap_unsigned_violated"
   ],
   "note": "complete except the unsigned wrapper of the C run-time, wrong for 2^61..2^62-1"
  },
  {
   "property": "C40",
   "status": "partial",
   "theorems": [
    "Verif.Range.forward_exact",
    "Verif.Range.forward_infinite",
    "Verif.Range.backward_exact",
    "Verif.Range.currentKey_exact",
    "Verif.Range.equal_sound",
    "Verif.Range.equal_complete_partial",
    "Verif.Range.equal_violated"
   ],
   "note": "= fails for ranges of one element with different steps"
  },
  {
   "property": "C41",
   "status": "partial",
   "theorems": [
    "Verif.Mangle.integer_value",
    "Verif.Mangle.binding_recovered_partial",
    "Verif.Mangle.binding_recovered_violated",
    "Verif.Mangle.method_details_partial",
    "Verif.Mangle.method_details_violated",
    "Verif.Mangle.link_names_distinct_partial",
    "Verif.Mangle.link_names_distinct_violated",
    "Verif.Mangle.slot_descriptors_distinct_violated",
    "Verif.Mangle.slot_descriptors_distinct_partial"
   ],
   "note": "proved for all objects except slot descriptors, over all names without # and ,; slot descriptors collide, and the library of a method is misread if it has an underscore"
  },
  {
   "property": "C42",
   "status": "proved",
   "theorems": [
    "Verif.Types.type_union_instance"
   ],
   "note": "on types for which instance? answers"
  },
  {
   "property": "C43",
   "status": "partial",
   "theorems": [
    "Verif.Class.joint_recorded_partial",
    "Verif.Class.primaries_related",
    "Verif.Class.subclass_order",
    "Verif.Class.joint_recorded_violated"
   ],
   "note": "proved for worlds made by loading libraries (this discharges the assumption of C32); run-time class creation does not record joint classes, and disjoint-types? then answers #t wrongly, which is proved"
  },
  {
   "property": "C44",
   "status": "partial",
   "theorems": [
    "Verif.Class.report_fine_iff",
    "Verif.Class.report_sound",
    "Verif.Class.report_found_partial",
    "Verif.Class.report_found_violated",
    "Verif.Class.report_found_violated_twice"
   ],
   "note": "the report is right whenever it comes, and always comes for two direct superclasses; with three superclasses in a circle, or a repeated superclass, the search finds nothing and the compiler fails"
  },
  {
   "property": "C45",
   "status": "partial",
   "theorems": [
    "Verif.Slots.declared_iff",
    "Verif.Slots.layout_sound_partial",
    "Verif.Slots.offset_sound_partial",
    "Verif.Slots.offset_absent",
    "Verif.Slots.primary_layout_kept_partial",
    "Verif.Slots.layout_succeeds_iff",
    "Verif.Slots.shared_getter_refused_partial",
    "Verif.Slots.shared_getter_report_violated",
    "Verif.Slots.layout_bounds_violated",
    "Verif.Slots.layout_sound_violated",
    "Verif.Slots.offset_sound_violated"
   ],
   "note": "proved for every heterarchy in which the getters of the declared slots are distinct; where two unrelated superclasses share a getter the code reports a bug in itself, writes outside the vector, or silently drops a repeated slot, each of which is proved"
  },
  {
   "property": "C46",
   "status": "partial",
   "theorems": [
    "Verif.Slots.fixed_offset_sound_partial",
    "Verif.Slots.fixed_offset_union_partial",
    "Verif.Slots.fixed_offset_repeated_violated"
   ],
   "note": "proved for all slots but repeated ones, whose offset moves in a subclass"
  },
  {
   "property": "C47",
   "status": "partial",
   "theorems": [
    "Verif.Slots.slot_access_partial",
    "Verif.Slots.compiled_access_partial",
    "Verif.Slots.class_slots_partial"
   ],
   "note": "proved for every history, where the getters are distinct; single thread"
  },
  {
   "property": "C48",
   "status": "partial",
   "theorems": [
    "Verif.Init.defaults_sound",
    "Verif.Init.outcome_exists_unique",
    "Verif.Init.make_sound",
    "Verif.Init.make_fails",
    "Verif.Init.compiled_agrees_partial",
    "Verif.Init.required_keyword_violated",
    "Verif.Init.required_own_keyword_violated",
    "Verif.Init.required_initial_violated",
    "Verif.Init.initial_type_violated",
    "Verif.Init.required_default_violated"
   ],
   "note": "the run-time constructor meets the specification for every class; the compiled one agrees with it under three conditions, and differs without any of them; requirements on keywords are lost in further cases, which are proved"
  },
  {
   "property": "C49",
   "status": "partial",
   "theorems": [
    "Verif.Init.guaranteed_sound",
    "Verif.Init.guaranteed_compiled_partial",
    "Verif.Init.guaranteed_violated"
   ],
   "note": "proved for the run-time constructor, and for the compiled one unless a class below says `required keyword`"
  },
  {
   "property": "C50",
   "status": "proved",
   "theorems": [
    "Verif.Threads.ReadWrite.readWrite_documented",
    "Verif.Threads.ReadWrite.documented_unique",
    "Verif.Threads.ReadWrite.readWrite_refines",
    "Verif.Threads.ReadWrite.readWrite_exclusive",
    "Verif.Threads.ReadWrite.readWrite_write_alone",
    "Verif.Threads.ReadWrite.readWrite_read_shared",
    "Verif.Threads.ReadWrite.readWrite_release_succeeds",
    "Verif.Threads.ReadWrite.readWrite_no_lost_wakeup",
    "Verif.Threads.ReadWrite.readWrite_waiters_get_it",
    "Verif.Threads.ReadWrite.readWrite_foreign_release",
    "Verif.Threads.ReadWrite.readWrite_owned_for_reading",
    "Verif.Threads.ReadWrite.readWrite_self_deadlock"
   ],
   "note": "every execution refines the documented lock; exclusion for threads that release only their own claims; three executions show what the discipline is needed for"
  },
  {
   "property": "C51",
   "status": "proved",
   "theorems": [
    "Verif.Dispatch.Table.table_by_class_is_map",
    "Verif.Dispatch.Table.table_by_singleton_is_map",
    "Verif.Dispatch.Table.hashed_search_ends"
   ],
   "note": "sequential use; concurrent readers are not part of this property"
  },
  {
   "property": "C52",
   "status": "partial",
   "theorems": [
    "Verif.Dispatch.classLess_defined",
    "Verif.Dispatch.specializer_order",
    "Verif.Dispatch.method_order",
    "Verif.Dispatch.sort_sound",
    "Verif.Dispatch.methods_sorted",
    "Verif.Dispatch.sorted_unique",
    "Verif.Dispatch.order_independent",
    "Verif.Dispatch.sort_drops_method_violated"
   ],
   "note": "for types that subtype? can compare, without subclass(<object>), subclass(<class>) and one-singleton unions; two methods on subclass(<object>) and <class> are called equal and one of them is lost"
  },
  {
   "property": "C53",
   "status": "partial",
   "theorems": [
    "Verif.Dispatch.cache_transparent_partial",
    "Verif.Dispatch.dispatch_correct_partial",
    "Verif.Dispatch.nested_limited_violated",
    "Verif.Dispatch.singleton_and_limited_violated",
    "Verif.Dispatch.subclass_in_union_violated",
    "Verif.Dispatch.moved_slot_violated"
   ],
   "note": "proved for generic functions without nested limited types, without a singleton beside a limited type of a related class, without subclass types in unions and without limited collections; shown false for the first three"
  },
  {
   "property": "C54",
   "status": "partial",
   "theorems": [
    "Verif.Dispatch.Gf.add_method_partial",
    "Verif.Dispatch.Gf.find_method_spec",
    "Verif.Dispatch.Gf.remove_method_spec",
    "Verif.Dispatch.Gf.gf_history_partial",
    "Verif.Dispatch.Gf.replace_dropped_violated",
    "Verif.Dispatch.Gf.stale_remove_violated"
   ],
   "note": "remove-method and find-method meet the specification; add-method does except where a method of the library of the generic function is replaced by one of another library and the new one is dropped, which is proved; histories are right except that remove-method leaves the cache as it is, so that removed methods are still invoked, which is proved"
  },
  {
   "property": "C55",
   "status": "partial",
   "theorems": [
    "Verif.IntString.integer_to_string_spec",
    "Verif.IntString.integer_to_string_base",
    "Verif.IntString.parts_unique",
    "Verif.IntString.string_to_integer_spec",
    "Verif.IntString.integer_string_roundtrip",
    "Verif.IntString.start_at_end_violated",
    "Verif.IntString.fill_lowercased_violated"
   ],
   "note": "proved for every integer, base, size and region; two small deviations are shown: an empty region at the end of the string is refused though there is a default, and lowercase?: also changes the fill character; byte characters only"
  },
  {
   "property": "C56",
   "status": "proved",
   "theorems": [
    "Verif.Date.day_number_spec",
    "Verif.Date.day_number_order",
    "Verif.Date.day_of_week_spec",
    "Verif.Date.make_date_spec"
   ],
   "note": "the code's day numbers are the only numbering of the proleptic Gregorian calendar from 1 January 1900; for all years, as mathematical integers"
  },
  {
   "property": "C57",
   "status": "partial",
   "theorems": [
    "Verif.Date.compare_dates_spec",
    "Verif.Date.set_zone_spec",
    "Verif.Date.uses_keep_instant",
    "Verif.Date.add_duration_spec",
    "Verif.Date.subtract_dates_spec",
    "Verif.Date.add_difference",
    "Verif.Date.add_months_spec",
    "Verif.Date.return_from_condition_violated",
    "Verif.Date.sum_out_of_range_violated"
   ],
   "note": "proved, as mathematical integers; a handler that returns, as it may, from the condition about the day does not get the last valid day, and sums out of the documented range cannot be used further, both of which are proved"
  },
  {
   "property": "C58",
   "status": "partial",
   "theorems": [
    "Verif.Date.duration_arithmetic_spec",
    "Verif.Date.decode_duration_spec",
    "Verif.Date.year_month_spec",
    "Verif.Date.compare_durations_partial",
    "Verif.Date.compare_durations_violated",
    "Verif.Date.duration_microseconds_violated",
    "Verif.Date.divide_duration_partial",
    "Verif.Date.divide_duration_violated"
   ],
   "note": "arithmetic is exact; comparison is right for durations in canonical form, which some durations are not; division is right only if each part is divisible (half a day is no time)"
  },
  {
   "property": "C59",
   "status": "partial",
   "theorems": [
    "Verif.Date.iso8601_partial",
    "Verif.Date.strict_implies_lax",
    "Verif.Date.iso8601_roundtrip",
    "Verif.Date.format_date_compositional",
    "Verif.Date.format_directive_spec",
    "Verif.Date.fraction_violated",
    "Verif.Date.lax_spaces_violated",
    "Verif.Date.as_iso8601_violated",
    "Verif.Date.format_parse_partial",
    "Verif.Date.parse_zone_violated",
    "Verif.Date.parse_zone_minutes_violated",
    "Verif.Date.parse_month_name_violated",
    "Verif.Date.parse_ignored_violated",
    "Verif.Date.parse_short_year_violated",
    "Verif.Date.format_milliseconds_violated"
   ],
   "note": "the strict ISO 8601 parser accepts exactly the grammar (with a fraction of at most six digits); round trips for ISO 8601 and for all control strings of the plain directives; the other directives fail in ways that are proved"
  },
  {
   "property": "C60",
   "status": "partial",
   "theorems": [
    "Verif.Stretchy.make_spec",
    "Verif.Stretchy.stretchy_vector_is_sequence",
    "Verif.Stretchy.stretchy_vector_safe",
    "Verif.Stretchy.as_stretchy_vector_spec",
    "Verif.Stretchy.failed_call_partial",
    "Verif.Stretchy.element_type_partial",
    "Verif.Stretchy.growth_fill_violated",
    "Verif.Stretchy.add_type_violated",
    "Verif.Stretchy.element_type_violated"
   ],
   "note": "histories refine a sequence; three details fail and are proved to fail: the fill after capacity:, a failing add! of a limited stretchy vector, and #f as fill of any element type"
  },
  {
   "property": "C61",
   "status": "proved",
   "theorems": [
    "Verif.Lists.every_list_has_a_shape",
    "Verif.Lists.shapes_exclusive",
    "Verif.Lists.size_of_proper",
    "Verif.Lists.size_of_circular",
    "Verif.Lists.size_of_dotted"
   ],
   "note": "for every finite memory"
  },
  {
   "property": "C62",
   "status": "proved",
   "theorems": [
    "Verif.Lists.element_spec",
    "Verif.Lists.member_iff",
    "Verif.Lists.reduce_folds",
    "Verif.Lists.last_spec",
    "Verif.Lists.current_key_spec",
    "Verif.Lists.reverse_spec",
    "Verif.Lists.remove_spec",
    "Verif.Lists.remove_negative",
    "Verif.Lists.remove_duplicates_spec",
    "Verif.Lists.lastOnes_distinct",
    "Verif.Lists.lastOnes_complete",
    "Verif.Lists.add_new_spec",
    "Verif.Lists.copy_sequence_spec",
    "Verif.Lists.concatenate_spec"
   ],
   "note": "on proper lists; the tests are functions without side effects"
  },
  {
   "property": "C63",
   "status": "partial",
   "theorems": [
    "Verif.Lists.element_setter_spec",
    "Verif.Lists.last_setter_spec",
    "Verif.Lists.last_setter_empty",
    "Verif.Lists.reverse_bang_spec",
    "Verif.Lists.remove_bang_spec",
    "Verif.Lists.remove_duplicates_bang_spec",
    "Verif.Lists.replace_subsequence_partial",
    "Verif.Lists.replace_subsequence_bounds_violated",
    "Verif.Lists.replace_subsequence_default_violated",
    "Verif.Lists.replace_subsequence_order_violated",
    "Verif.Lists.replace_subsequence_self_violated"
   ],
   "note": "all proved but replace-subsequence!, which is right for bounds within the list and a sequence that shares no pairs with it; it does not check its bounds (and then may store into the empty list, or not return), takes another default for end: than the other sequence classes, and does not return when a list is inserted into itself"
  },
  {
   "property": "C64",
   "status": "partial",
   "theorems": [
    "Verif.Nlx.exits_follow_meaning_partial",
    "Verif.Nlx.exits_follow_meaning_plain",
    "Verif.Nlx.exit_forgotten_violated",
    "Verif.Nlx.exit_forgotten_crash_violated",
    "Verif.Nlx.exit_to_wrong_block_violated",
    "Verif.Nlx.exit_values_lost_violated",
    "Verif.Nlx.too_many_values_violated"
   ],
   "note": "C back end and C run time; the code follows the meaning of every program whose cleanup clauses do not exit, and of those whose cleanup clauses exit only in the ways Tame allows; for the others counterexamples are proved: exits are forgotten, go to the wrong block or deliver other values. Programs are well-founded trees, so programs that do not end are not covered"
  },
  {
   "property": "C65",
   "status": "partial",
   "theorems": [
    "Verif.Nlx.cleanups_run_once_partial",
    "Verif.Nlx.cleanups_run_once_plain",
    "Verif.Nlx.cleanup_twice_violated",
    "Verif.Nlx.cleanup_stale_frame_violated"
   ],
   "note": "as C64; a cleanup clause that exits after its body ended normally is run twice"
  },
  {
   "property": "C66",
   "status": "partial",
   "theorems": [
    "Verif.Args.call_binds_partial",
    "Verif.Args.call_ignores_unknown",
    "Verif.Args.keyword_parameter_bound",
    "Verif.Args.call_counts_required",
    "Verif.Args.too_many_arguments_violated",
    "Verif.Args.unknown_keyword_violated",
    "Verif.Args.many_parameters_violated"
   ],
   "note": "C run time; proved for up to 256 arguments, bodies with up to 64 parameters and known keywords. Beyond that the claim fails, and is proved to fail: unknown keywords are accepted, more than 256 arguments overflow the buffer before they are counted, and a method with more than 64 parameters cannot be called"
  },
  {
   "property": "C67",
   "status": "partial",
   "theorems": [
    "Verif.Args.apply_is_call_partial",
    "Verif.Args.apply_breaks_violated",
    "Verif.Args.apply_overflow_violated"
   ],
   "note": "proved for up to 64 arguments; with more, apply stops in the debugger or writes past its buffer"
  },
  {
   "property": "C68",
   "status": "partial",
   "theorems": [
    "Verif.Args.gf_call_binds_partial",
    "Verif.Args.congruent_call_binds_partial",
    "Verif.Args.gf_unknown_keyword_partial",
    "Verif.Args.gf_unknown_keyword_violated",
    "Verif.Args.false_keyword_violated",
    "Verif.Args.odd_keywords_violated",
    "Verif.Args.stale_count_violated",
    "Verif.Args.nine_required_violated"
   ],
   "note": "proved for up to eight required arguments, known keywords, an argument count of the thread that is not too large, and an odd number of arguments only where it is checked; each of these restrictions is shown necessary"
  },
  {
   "property": "C69",
   "status": "partial",
   "theorems": [
    "Verif.Conc.table_linearizable_partial",
    "Verif.Conc.table_clear_marker_violated",
    "Verif.Conc.table_clear_lost_violated",
    "Verif.Conc.table_rehash_race_violated"
   ],
   "note": "linearizability proved for all schedules of element, element-setter, remove-key!, gethash-or-set and make-symbol, if hash codes do not change, or without rehashing in place. The claim fails, and is proved to fail, for remove-all-keys! (element returns an internal marker; a clear is lost) and for in-place rehashing while hash codes change (element misses a key); iterations are not modelled; memory is sequentially consistent"
  },
  {
   "property": "C70",
   "status": "partial",
   "theorems": [
    "Verif.Conc.symbols_unique_partial"
   ],
   "note": "proved for all schedules of the symbol table's two interning functions and fetches, from linearizability; calls that signal the table-too-large error return nothing, and the hash function of strings is a parameter"
  },
  {
   "property": "C71",
   "status": "proved",
   "theorems": [
    "Verif.Bits.logic_is_pointwise",
    "Verif.Bits.logic_in_place_is_pointwise",
    "Verif.Bits.not_is_pointwise"
   ],
   "note": "64-bit words; vectors are objects in a heap, so that sharing and changes are part of the statement"
  },
  {
   "property": "C72",
   "status": "partial",
   "theorems": [
    "Verif.Bits.bit_sets_partial",
    "Verif.Bits.negative_members",
    "Verif.Bits.bit_sets_violated"
   ],
   "note": "every history of calls refines sets of natural numbers; empty-bit-set! and universal-bit-set! fail with an overflow on sets made for 62 or 63 numbers"
  },
  {
   "property": "C73",
   "status": "partial",
   "theorems": [
    "Verif.Bits.forward_iteration",
    "Verif.Bits.forward_infinite_partial",
    "Verif.Bits.backward_iteration_partial",
    "Verif.Bits.backward_infinite",
    "Verif.Bits.backward_violated",
    "Verif.Bits.forward_infinite_violated"
   ],
   "note": "forward over finite sets proved for all; the forward iteration over infinite sets skips members and the backward iteration visits numbers that are not members, depending on bits beyond the end of the vector"
  },
  {
   "property": "C74",
   "status": "partial",
   "theorems": [
    "Verif.Bits.element_and_setter",
    "Verif.Bits.fill_partial",
    "Verif.Bits.bit_count_counts",
    "Verif.Bits.fill_overflow_violated",
    "Verif.Bits.fill_bounds_violated"
   ],
   "note": "fill! fails with an overflow if end is one of the last two bits of the word start is in, and does not check its bounds"
  },
  {
   "property": "C75",
   "status": "proved",
   "theorems": [
    "Verif.Streams.input_stream_is_the_file",
    "Verif.Streams.input_stream_in_pieces",
    "Verif.Streams.buffer_size_rounded",
    "Verif.Streams.buffer_size_accepted"
   ],
   "note": "byte streams on regular files; system calls do not fail and read(2) delivers what is asked up to the end of the file; integers are unbounded; one thread uses the stream"
  },
  {
   "property": "C76",
   "status": "partial",
   "theorems": [
    "Verif.Streams.output_stream_is_the_file_partial",
    "Verif.Streams.output_stream_sequential",
    "Verif.Streams.write_then_read",
    "Verif.Streams.output_stream_violated"
   ],
   "note": "proved for all histories in which no write follows a force-output that was called behind the end of what had been written; such a write is lost, and this is proved"
  },
  {
   "property": "C77",
   "status": "partial",
   "theorems": [
    "Verif.Streams.inout_stream_is_the_file_partial",
    "Verif.Streams.inout_stream_violated",
    "Verif.Streams.inout_stream_false_end_violated",
    "Verif.Streams.inout_stream_store_violated",
    "Verif.Streams.inout_stream_past_end_violated",
    "Verif.Streams.inout_stream_overrun_violated"
   ],
   "note": "proved for all histories in which the position is set between writing and reading and between reading and write-element, not past the end of the file, and not within a page a write has come into from another page; for each of these conditions a history outside it is proved to fail"
  },
  {
   "property": "C78",
   "status": "partial",
   "theorems": [
    "Verif.Streams.read_on_end_of_stream_partial",
    "Verif.Streams.read_on_end_of_stream_violated"
   ],
   "note": "proved for input streams and all values but the integer n, for which read returns n although the elements are there, and drops them"
  },
  {
   "property": "C79",
   "status": "partial",
   "theorems": [
    "Verif.Streams.past_end_partial",
    "Verif.Streams.past_end_violated"
   ],
   "note": "proved for the first such call on a newly opened stream; the second one at a buffer boundary adds nothing, since the shared buffer with the zero is used up"
  },
  {
   "property": "C80",
   "status": "partial",
   "theorems": [
    "Verif.SeqStream.sequence_stream_partial",
    "Verif.SeqStream.sequence_stream_start_violated",
    "Verif.SeqStream.sequence_stream_end_violated",
    "Verif.SeqStream.sequence_stream_clear_violated",
    "Verif.SeqStream.sequence_stream_unread_violated",
    "Verif.SeqStream.sequence_stream_position_violated"
   ],
   "note": "proved for all histories without the calls on which the code fails: positions before start: or (without end:) behind the end, the end without end:, clearing and unreading at the beginning with start: or end:; for each a failing history is proved"
  },
  {
   "property": "C81",
   "status": "proved",
   "theorems": [
    "Verif.SeqStream.written_is_contents"
   ],
   "note": "the sequence is used by the stream only; integers are unbounded"
  },
  {
   "property": "C82",
   "status": "proved",
   "theorems": [
    "Verif.SeqStream.read_to",
    "Verif.SeqStream.read_through",
    "Verif.SeqStream.read_to_end",
    "Verif.SeqStream.skip_through",
    "Verif.SeqStream.split_ok",
    "Verif.SeqStream.read_line",
    "Verif.SeqStream.read_line_into",
    "Verif.SeqStream.read_text_into",
    "Verif.SeqStream.sequence_source",
    "Verif.SeqStream.open_shows",
    "Verif.SeqStream.file_source",
    "Verif.SeqStream.file_shows"
   ],
   "note": "the methods on <stream>; the test does not change the stream; read-text-into! with room for n characters; the methods of file streams that override these are in C75"
  },
  {
   "property": "C83",
   "status": "partial",
   "theorems": [
    "Verif.SeqStream.read_into_partial",
    "Verif.SeqStream.read_into_violated"
   ],
   "note": "proved when n elements are there and there is room for them; otherwise the elements are dropped, and this is proved"
  },
  {
   "property": "C84",
   "status": "proved",
   "theorems": [
    "Verif.Locators.dirOfString_place",
    "Verif.Locators.dirOfString_proper",
    "Verif.Locators.dir_roundtrip",
    "Verif.Locators.dirToString_place",
    "Verif.Locators.dir_reread",
    "Verif.Locators.file_make_name",
    "Verif.Locators.fileOfString_place",
    "Verif.Locators.fileOfString_proper",
    "Verif.Locators.file_roundtrip",
    "Verif.Locators.file_reread"
   ],
   "note": "places are meant lexically (a file system without symbolic links); the round trip is for locators whose names can be names (as all made from strings have)"
  },
  {
   "property": "C85",
   "status": "partial",
   "theorems": [
    "Verif.Locators.simplifyDir_place",
    "Verif.Locators.simplifyDir_simple",
    "Verif.Locators.simplifyDir_idempotent",
    "Verif.Locators.simplifyDir_complete",
    "Verif.Locators.simplifyDir_complete_absolute_partial",
    "Verif.Locators.simplifyDir_complete_absolute_violated",
    "Verif.Locators.simplifyFile_place",
    "Verif.Locators.simplifyFile_idempotent"
   ],
   "note": "all but the last part is proved in full; equal places give equal locators for relative locators, and for absolute ones that do not go above the root (/.. is not simplified to /)"
  },
  {
   "property": "C86",
   "status": "partial",
   "theorems": [
    "Verif.Locators.relativeDir_total",
    "Verif.Locators.relativeDir_place_partial",
    "Verif.Locators.relativeDir_place_names_partial",
    "Verif.Locators.relativeDir_place_violated",
    "Verif.Locators.relativeDir_mixed_violated",
    "Verif.Locators.relativeFile_place_partial",
    "Verif.Locators.relativeFile_place_violated"
   ],
   "note": "proved when both are absolute or both relative and from has only names after the shared part; otherwise, for .. in from, for a relative locator and an absolute from, and for files without directory, failing cases are proved"
  },
  {
   "property": "C87",
   "status": "proved",
   "theorems": [
    "Verif.Locators.mergeDir_place",
    "Verif.Locators.mergeFile_place",
    "Verif.Locators.mergeDirFile_place",
    "Verif.Locators.mergeFiles_place",
    "Verif.Locators.subdirectory_place",
    "Verif.Locators.fileLocator_place"
   ],
   "note": "for locators as they are made (. and .. as items); names are not empty strings"
  },
  {
   "property": "C88",
   "status": "partial",
   "theorems": [
    "Verif.Locators.dirDirectory_place_partial",
    "Verif.Locators.dirDirectory_place_violated"
   ],
   "note": "proved for locators whose last item is a name; for a/.. the directory is a, and locator-name has no value"
  },
  {
   "property": "C89",
   "status": "proved",
   "theorems": [
    "Verif.Common.split_function",
    "Verif.Common.split_object",
    "Verif.Common.split_sequence",
    "Verif.Common.split_empty",
    "Verif.Common.parts_object",
    "Verif.Common.split_object_keep"
   ],
   "note": "start: and end: within the sequence, in this order"
  },
  {
   "property": "C90",
   "status": "proved",
   "theorems": [
    "Verif.Common.join_eq",
    "Verif.Common.join_split_object",
    "Verif.Common.join_split_sequence",
    "Verif.Common.split_join"
   ],
   "note": "the test is equality; sequences whose class can be made with a size"
  },
  {
   "property": "C91",
   "status": "proved",
   "theorems": [
    "Verif.Common.position_vector",
    "Verif.Common.position_sequence",
    "Verif.Common.find_element"
   ],
   "note": "for vectors end: is within the vector (otherwise the code signals an error if it gets there)"
  },
  {
   "property": "C92",
   "status": "partial",
   "theorems": [
    "Verif.Common.difference_ok",
    "Verif.Common.fill_table_partial",
    "Verif.Common.fill_table_violated"
   ],
   "note": "proved if no key is #f; with a key #f it is false, and this is proved"
  },
  {
   "property": "C93",
   "status": "proved",
   "theorems": [
    "Verif.Iter.fill_ok",
    "Verif.Iter.fill_bad",
    "Verif.Iter.replace_elements",
    "Verif.Iter.copy_sequence",
    "Verif.Iter.copy_sequence_bad",
    "Verif.Iter.replace_subsequence",
    "Verif.Iter.replace_subsequence_bad",
    "Verif.Iter.concatenate_as"
   ],
   "note": "lists, vectors and deques; functions given as arguments change nothing"
  },
  {
   "property": "C94",
   "status": "partial",
   "theorems": [
    "Verif.Iter.subsequence_position_partial",
    "Verif.Iter.subsequence_position_violated",
    "Verif.Iter.subsequence_position_empty_partial"
   ],
   "note": "proved for patterns that are not empty, and for the empty one if count: is at most size + 1; beyond that it is false, and this is proved"
  },
  {
   "property": "C95",
   "status": "proved",
   "theorems": [
    "Verif.Iter.equal_sequences",
    "Verif.Iter.equal_arrays",
    "Verif.Iter.equal_tables",
    "Verif.Iter.equal_sequence_table"
   ],
   "note": ""
  },
  {
   "property": "C96",
   "status": "proved",
   "theorems": [
    "Verif.Iter.choose_eq",
    "Verif.Iter.choose_by",
    "Verif.Iter.remove_eq",
    "Verif.Iter.remove_duplicates",
    "Verif.Iter.union_eq",
    "Verif.Iter.intersection_eq",
    "Verif.Iter.add_new",
    "Verif.Iter.member_eq",
    "Verif.Iter.anyOne_eq",
    "Verif.Iter.everyTwo_eq"
   ],
   "note": "functions given as arguments change nothing"
  },
  {
   "property": "C97",
   "status": "partial",
   "theorems": [
    "Verif.Iter.map_into_partial",
    "Verif.Iter.map_into_deque_violated",
    "Verif.Iter.map_into_list_violated",
    "Verif.Iter.map_into_table_partial",
    "Verif.Iter.map_into_table_violated"
   ],
   "note": "one source; false, and this is proved, for a deque shorter than a source that is not a list, a list with an array that is not an object vector, and a list with a table"
  },
  {
   "property": "C98",
   "status": "partial",
   "theorems": [
    "Verif.Iter.multiple_sequences",
    "Verif.Iter.multiple_tables",
    "Verif.Iter.multiple_mixed_partial",
    "Verif.Iter.multiple_mixed_violated"
   ],
   "note": "proved unless all sequences among sequences and tables are unbounded; then the iteration may not end, and this is proved"
  },
  {
   "property": "C99",
   "status": "proved",
   "theorems": [
    "Verif.Iter.accumulator_elements",
    "Verif.Iter.accumulator_keyed",
    "Verif.Iter.convert_keyed"
   ],
   "note": ""
  },
  {
   "property": "C100",
   "status": "partial",
   "theorems": [
    "Verif.BigInt.plus_partial",
    "Verif.BigInt.plus_violated",
    "Verif.BigInt.minus_partial",
    "Verif.BigInt.minus_violated",
    "Verif.BigInt.negate_exact",
    "Verif.BigInt.comparison_exact",
    "Verif.BigInt.results_canonical"
   ],
   "note": "negative, abs and the comparisons are proved in full; + is exact unless the sum is among the 2^64 least numbers, - unless the difference is among the 2^64 greatest: there it can signal an overflow although the number has 128 bits, and this is proved; no wrong number is ever returned"
  },
  {
   "property": "C101",
   "status": "partial",
   "theorems": [
    "Verif.BigInt.times_partial",
    "Verif.BigInt.times_violated"
   ],
   "note": "proved if the product has 128 bits and is not zero with a negative factor; otherwise it is false, and this is proved; every result is the product up to a multiple of 2^128"
  },
  {
   "property": "C102",
   "status": "partial",
   "theorems": [
    "Verif.BigInt.division_partial",
    "Verif.BigInt.divide_small",
    "Verif.BigInt.large_divisor_partial",
    "Verif.BigInt.small_by_double_partial",
    "Verif.BigInt.division_violated"
   ],
   "note": "proved for positive dividends and divisors up to 2^31 (beyond: exact or overflow), and for small dividends with double divisors but for three cases; false, and this is proved, for negative operands and two double integers"
  },
  {
   "property": "C103",
   "status": "partial",
   "theorems": [
    "Verif.BigInt.ash_left_exact",
    "Verif.BigInt.ash_right_partial",
    "Verif.BigInt.ash_violated",
    "Verif.BigInt.lsh_partial",
    "Verif.BigInt.logical_exact",
    "Verif.BigInt.logbit_exact"
   ],
   "note": "proved but for the count -2^61, which is an overflow"
  },
  {
   "property": "C104",
   "status": "partial",
   "theorems": [
    "Verif.BigInt.power_partial",
    "Verif.BigInt.power_violated"
   ],
   "note": "proved if the power of the magnitude has 128 bits; otherwise it is false, and this is proved"
  },
  {
   "property": "C105",
   "status": "partial",
   "theorems": [
    "Verif.BigInt.number_to_string_partial",
    "Verif.BigInt.number_to_string_violated",
    "Verif.BigInt.integer_length_partial",
    "Verif.BigInt.integer_length_violated"
   ],
   "note": "the digits are proved for positive double integers and the length for those between -2^64 and 2^64; beyond that they are false, and this is proved"
  },
  {
   "property": "C106",
   "status": "partial",
   "theorems": [
    "Verif.Signal.conditions_partial",
    "Verif.Signal.meaning_ends",
    "Verif.Signal.exception_cleanup_violated",
    "Verif.Signal.cleanup_handlers_violated",
    "Verif.Signal.next_handler_violated"
   ],
   "note": "proved for every program that ends, unless a cleanup clause is run on the way to an exception clause, or next-handler uses up the handlers in force twice for one signal and there are last handlers; in these cases it is false, and this is proved; calls of exit procedures of blocks that are over are left out"
  },
  {
   "property": "C107",
   "status": "proved",
   "theorems": [
    "Verif.Signal.handlers_restored",
    "Verif.Signal.clause_handlers"
   ],
   "note": ""
  },
  {
   "property": "C108",
   "status": "proved",
   "theorems": [
    "Verif.Signal.error_never_returns",
    "Verif.Signal.cerror_returns"
   ],
   "note": ""
  },
  {
   "property": "C109",
   "status": "proved",
   "theorems": [
    "Verif.Signal.signal_order",
    "Verif.Signal.default_handlers"
   ],
   "note": "for handlers that call other code once, then decline or answer; for all others see C106"
  },
  {
   "property": "C110",
   "status": "proved",
   "theorems": [
    "Verif.Signal.do_handlers"
   ],
   "note": ""
  },
  {
   "property": "C111",
   "status": "proved",
   "theorems": [
    "Verif.Reader.operators_grouped",
    "Verif.Reader.operators_grouped_unique",
    "Verif.Reader.operators_round_trip"
   ],
   "note": ""
  },
  {
   "property": "C112",
   "status": "partial",
   "theorems": [
    "Verif.Reader.token_location",
    "Verif.Reader.tokens_tile",
    "Verif.Reader.all_tokens_located_partial",
    "Verif.Reader.hash_literal_columns_violated",
    "Verif.Reader.invalid_location_violated",
    "Verif.Reader.last_line_comment_violated"
   ],
   "note": "proved for each token read by a lexer whose own line and column are right, and for all tokens of a source without #:name: literals; after such a literal with a newline in it the columns are wrong, and this is proved; a comment in a last line without newline is read as tokens, and this is proved"
  },
  {
   "property": "C113",
   "status": "proved",
   "theorems": [
    "Verif.Reader.longest_token",
    "Verif.Reader.no_internal_error"
   ],
   "note": "for tokens that are not strings: where a string ends is C118 and C119"
  },
  {
   "property": "C114",
   "status": "partial",
   "theorems": [
    "Verif.Reader.offset_round_trip",
    "Verif.Reader.offset_order",
    "Verif.Reader.position_round_trip",
    "Verif.Reader.position_between",
    "Verif.Reader.column_before_line_violated",
    "Verif.Reader.backward_position_violated"
   ],
   "note": "proved for all columns from 0 and all positions whose end is not before their start; the column -1, which the lexer gives to the end of some invalid tokens, and positions that end in an earlier line are not given back, and this is proved"
  },
  {
   "property": "C115",
   "status": "partial",
   "theorems": [
    "Verif.Reader.letter_names",
    "Verif.Reader.graphic_names_partial",
    "Verif.Reader.keywords",
    "Verif.Reader.graphic_names_violated"
   ],
   "note": "proved for all names that begin with a letter, and for names that begin with a graphic character if no - or + comes before the first letter; for those it is false, and this is proved"
  },
  {
   "property": "C116",
   "status": "proved",
   "theorems": [
    "Verif.Reader.integer_literals"
   ],
   "note": ""
  },
  {
   "property": "C117",
   "status": "proved",
   "theorems": [
    "Verif.Reader.character_literals"
   ],
   "note": ""
  },
  {
   "property": "C118",
   "status": "partial",
   "theorems": [
    "Verif.Reader.string_literals",
    "Verif.Reader.empty_string_literals",
    "Verif.Reader.string_round_trip",
    "Verif.Reader.raw_string_literals",
    "Verif.Reader.leftover_quotes_violated"
   ],
   "note": "proved for every lexer that has no quotes left over; after an invalid string it has, and then it is false, and this is proved; a tab in a string is warned about"
  },
  {
   "property": "C119",
   "status": "proved",
   "theorems": [
    "Verif.Reader.quoted_strings",
    "Verif.Reader.multi_line_strings"
   ],
   "note": "for a lexer that has no quotes left over (C118)"
  },
  {
   "property": "C120",
   "status": "partial",
   "theorems": [
    "Verif.Reader.blanks_skipped_partial",
    "Verif.Reader.nested_comment_violated"
   ],
   "note": "proved unless the end of an inner comment is followed by * or /; then it is false, and this is proved"
  },
  {
   "property": "C121",
   "status": "partial",
   "theorems": [
    "Verif.Reader.float_literals_partial",
    "Verif.Reader.long_mantissa_violated",
    "Verif.Reader.exponent_bracket_violated",
    "Verif.Reader.no_digits_violated",
    "Verif.Reader.fraction_underscore_violated"
   ],
   "note": "proved for at most 18 digits before the exponent and no underscores; beyond that it is false in some cases, and this is proved; floating point arithmetic is not modelled"
  },
  {
   "property": "C122",
   "status": "partial",
   "theorems": [
    "Verif.Names.filter_names",
    "Verif.Names.filter_exported_names",
    "Verif.Names.unfilter_sound",
    "Verif.Names.unfilter_complete_partial",
    "Verif.Names.excluded_rename_violated",
    "Verif.Names.prefix_case_violated"
   ],
   "note": "visible and passed-on names, and soundness of the lookup, are proved for all clauses and spellings; that the lookup finds a visible name is proved if the clause does not exclude a name it renames and names are spelled like the prefix; otherwise it is false, and this is proved"
  },
  {
   "property": "C123",
   "status": "proved",
   "theorems": [
    "Verif.Names.lookup_right",
    "Verif.Names.exported_right",
    "Verif.Names.no_error",
    "Verif.Names.lookup_same",
    "Verif.Names.clash_history_violated",
    "Verif.Names.missing_rename_violated"
   ],
   "note": "for clean definitions: no clash, renamed names are there and not excluded, prefixes spelled like the names. Without that it is false: with a clash the binding changes when the module is used, and with a rename of a missing name an import is lost without warning; both are proved. Redefinition of modules and the tables of macro words are not modelled"
  },
  {
   "property": "C124",
   "status": "proved",
   "theorems": [
    "Verif.Names.warnings_sound",
    "Verif.Names.warnings_complete",
    "Verif.Names.no_warning_clean",
    "Verif.Names.conflict_imported"
   ],
   "note": "the modules defined before are taken to be clean"
  },
  {
   "property": "C125",
   "status": "partial",
   "theorems": [
    "Verif.Names.all_used_partial",
    "Verif.Names.mutual_use_violated"
   ],
   "note": "proved for modules that use modules defined before them; for two modules that use one another the walk does not end, and this is proved"
  },
  {
   "property": "C126",
   "status": "partial",
   "theorems": [
    "Verif.Reader.hash_literals_partial",
    "Verif.Reader.hash_words",
    "Verif.Reader.backslash_end_violated"
   ],
   "note": "data between delimiters must not end in a backslash; for such data the statement is false, and this is proved"
  },
  {
   "property": "C127",
   "status": "partial",
   "theorems": [
    "Verif.Format.format_says",
    "Verif.Format.format_prefix",
    "Verif.Format.format_errors",
    "Verif.Format.format_only_partial",
    "Verif.Format.missing_argument_violated",
    "Verif.Format.minus_in_field_violated",
    "Verif.Format.zero_field_violated",
    "Verif.Format.big_radix_violated"
   ],
   "note": "how objects are printed is a parameter; missing arguments, minus signs within fields, fields of width 0 and radices of other integers disagree with the documentation, and this is proved"
  },
  {
   "property": "C128",
   "status": "partial",
   "theorems": [
    "Verif.Format.print_says",
    "Verif.Format.print_errors",
    "Verif.Format.print_outcomes",
    "Verif.Format.formats_agree_partial",
    "Verif.Format.x_case_violated"
   ],
   "note": "proved but for the agreement of the two on %x, which is false; how objects are named is a parameter"
  },
  {
   "property": "C129",
   "status": "proved",
   "theorems": [
    "Verif.Print.print_character_reads",
    "Verif.Print.print_string_reads",
    "Verif.Print.print_symbol_reads",
    "Verif.Print.print_symbol_same",
    "Verif.Print.print_printable",
    "Verif.Print.print_injective",
    "Verif.Print.chunks_same"
   ],
   "note": "strings of bytes; unicode strings are not modelled"
  },
  {
   "property": "C130",
   "status": "partial",
   "theorems": [
    "Verif.Print.print_shows",
    "Verif.Print.print_bounded",
    "Verif.Print.print_faithful",
    "Verif.Print.numerals_distinct",
    "Verif.Print.negative_length_violated"
   ],
   "note": "circle? and pretty? are #f; negative lengths, for which lists and vectors differ, are excluded and this is proved"
  },
  {
   "property": "C131",
   "status": "partial",
   "theorems": [
    "Verif.Print.circle_ends_partial",
    "Verif.Print.circle_ends_iff",
    "Verif.Print.circle_tags",
    "Verif.Print.circle_references",
    "Verif.Print.self_vector_violated",
    "Verif.Print.lists_alike_violated"
   ],
   "note": "an object that is a part of itself is printed without end and lists lose elements; both are proved; other objects than lists and vectors are taken to print no further objects"
  },
  {
   "property": "C132",
   "status": "partial",
   "theorems": [
    "Verif.Macro.parts_split",
    "Verif.Macro.match_sound",
    "Verif.Macro.match_complete",
    "Verif.Macro.match_least",
    "Verif.Macro.match_binds",
    "Verif.Macro.reading_unique",
    "Verif.Macro.match_iff_partial",
    "Verif.Macro.overlapping_splice_violated",
    "Verif.Macro.name_constraint_violated",
    "Verif.Macro.string_literal_violated",
    "Verif.Macro.key_constraint_violated"
   ],
   "note": "overlapping prefix and suffix of a spliced variable makes the compiler fail, string literals never match and the constraints of keyword variables are not checked, all proved; the parser of constraints is a parameter"
  },
  {
   "property": "C133",
   "status": "partial",
   "theorems": [
    "Verif.Macro.template_fills_partial",
    "Verif.Macro.template_fails",
    "Verif.Macro.template_unique",
    "Verif.Macro.expand_iff_partial",
    "Verif.Macro.expand_unique",
    "Verif.Macro.refused_call",
    "Verif.Macro.expand_mono",
    "Verif.Macro.endless_rules",
    "Verif.Macro.separator_left_violated"
   ],
   "note": "proved for macros without ??x and without spliced variables that have both prefix and suffix; ??x whose elements are rewritten to nothing leaves a separator, proved; hygiene, procedural templates and calls in templates are not modelled"
  },
  {
   "property": "C134",
   "status": "partial",
   "theorems": [
    "Verif.Macro.constraint_longest",
    "Verif.Macro.constraint_failure",
    "Verif.Macro.constraint_ends",
    "Verif.Macro.expression_parsed",
    "Verif.Macro.lone_operator_violated"
   ],
   "note": "proved of parse-constraint and parse-bounded-constraint for every parser; the shortcut for single fragments takes an operator for an expression, proved; the shortcuts of variable and body are not modelled"
  },
  {
   "property": "C135",
   "status": "partial",
   "theorems": [
    "Verif.Hash.identical_equivalence",
    "Verif.Hash.object_hash_partial",
    "Verif.Hash.object_hash_violated",
    "Verif.Hash.object_hash_zero_violated",
    "Verif.Hash.object_table_is_map_partial",
    "Verif.Hash.object_table_violated",
    "Verif.Hash.string_equal",
    "Verif.Hash.string_hash_respects",
    "Verif.Hash.string_table_is_map",
    "Verif.Hash.symbol_names_equal",
    "Verif.Hash.symbol_hash_respects",
    "Verif.Hash.symbol_table_is_map",
    "Verif.Hash.collection_equal",
    "Verif.Hash.collection_hash_respects",
    "Verif.Hash.collection_hash_ordered_violated",
    "Verif.Hash.sequence_equal",
    "Verif.Hash.sequence_hash_respects",
    "Verif.Hash.object_hash_integer",
    "Verif.Hash.string_hash_integer",
    "Verif.Hash.symbol_hash_integer",
    "Verif.Hash.collection_hash_integer",
    "Verif.Hash.sequence_hash_integer"
   ],
   "note": "proved for string and symbol tables and for collections; object tables fail for double floats and for the negative zero of single floats, proved"
  },
  {
   "property": "C136",
   "status": "partial",
   "theorems": [
    "Verif.Loops.for_means",
    "Verif.Loops.for_result",
    "Verif.Loops.from_to_runs",
    "Verif.Loops.declared_type_violated",
    "Verif.Loops.empty_header_violated",
    "Verif.Loops.check_order_violated"
   ],
   "note": "proved for all loops with a header in which no declared type of a numeric variable with constant start and increment is lost; normal results as in the manual, errors with the type checks of next values done early; the exceptions are proved to differ; assignments to iteration variables and closures over them are not modelled"
  },
  {
   "property": "C137",
   "status": "partial",
   "theorems": [
    "Verif.Arrays.array_is_variables_partial",
    "Verif.Arrays.never_outside_partial",
    "Verif.Arrays.size_is_volume_partial",
    "Verif.Arrays.row_major_index",
    "Verif.Arrays.row_major_index_bijective",
    "Verif.Arrays.row_major_index_order",
    "Verif.Arrays.shallow_copy_equal_partial",
    "Verif.Arrays.no_dimensions_violated",
    "Verif.Arrays.negative_dimensions_violated",
    "Verif.Arrays.empty_copy_violated",
    "Verif.Arrays.vector_index_violated"
   ],
   "note": "proved for arrays with at least one dimension, none of them negative, and copies of arrays with elements; the other cases are proved to fail, two of them by reading and writing outside of the storage"
  },
  {
   "property": "C138",
   "status": "proved",
   "theorems": [
    "Verif.Indent.indented_lines",
    "Verif.Indent.pieces_do_not_matter",
    "Verif.Indent.pad_width",
    "Verif.Indent.pad_blank"
   ],
   "note": "for positive tab widths; integers are not bounded in the model, discard-output and with-indentation (indent before and after) are not modelled"
  },
  {
   "property": "C139",
   "status": "partial",
   "theorems": [
    "Verif.Cse.sharing_partial",
    "Verif.Cse.sharing_meant",
    "Verif.Cse.stays_good_partial",
    "Verif.Cse.stateless_unless_said",
    "Verif.Cse.folded_if_violated",
    "Verif.Cse.read_again_violated",
    "Verif.Cse.written_again_violated",
    "Verif.Cse.fresh_object_violated"
   ],
   "note": "holds if primitives do what their adjectives say and no if is folded by the pass; both fail for the code as it is: a folded if lets the walk run out of its branch, and memory accessors count as stateless"
  },
  {
   "property": "C140",
   "status": "partial",
   "theorems": [
    "Verif.MwFold.folded_partial",
    "Verif.MwFold.folds",
    "Verif.MwFold.folds_unless_overflow",
    "Verif.MwFold.subtract_folded_partial",
    "Verif.MwFold.subtract_opposite_violated",
    "Verif.MwFold.subtract_folded_violated",
    "Verif.MwFold.floor_folded_partial",
    "Verif.MwFold.floor_folded_violated"
   ],
   "note": "holds for all folders but those of the checked subtraction and of division, which lose the signs of their operands"
  },
  {
   "property": "C141",
   "status": "partial",
   "theorems": [
    "Verif.MwPeep.same_partial",
    "Verif.MwPeep.right_partial",
    "Verif.MwPeep.shifted_overflow_violated",
    "Verif.MwPeep.zero_minus_violated",
    "Verif.MwPeep.masked_shift_violated",
    "Verif.MwPeep.negative_tag_violated"
   ],
   "note": "holds for all rules but three, which are wrong for every constant they apply to; a shift to and fro loses its overflow"
  },
  {
   "property": "C142",
   "status": "partial",
   "theorems": [
    "Verif.WordString.word_to_string_spec",
    "Verif.WordString.parts_unique",
    "Verif.WordString.string_to_word_spec",
    "Verif.WordString.region_refused",
    "Verif.WordString.word_string_roundtrip",
    "Verif.WordString.blank_violated",
    "Verif.WordString.overflow_violated"
   ],
   "note": "round trip and reading proved; blank strings give zero, and digits that do not fit are dropped"
  },
  {
   "property": "C143",
   "status": "partial",
   "theorems": [
    "Verif.Plist.vector_cases",
    "Verif.Plist.odd_refused",
    "Verif.Plist.get_vector",
    "Verif.Plist.put_vector",
    "Verif.Plist.get_after_put",
    "Verif.Plist.sequences_vector",
    "Verif.Plist.remove_vector",
    "Verif.Plist.get_after_remove",
    "Verif.Plist.removed_value_partial",
    "Verif.Plist.removed_value_violated",
    "Verif.Plist.remove_keywords",
    "Verif.Plist.get_list",
    "Verif.Plist.put_list",
    "Verif.Plist.remove_list",
    "Verif.Plist.list_after_remove_partial",
    "Verif.Plist.list_after_remove_violated"
   ],
   "note": "holds but for the value and effect of remove-property! when an indicator occurs twice; remove-keywords is modelled for vectors"
  },
  {
   "property": "C144",
   "status": "partial",
   "theorems": [
    "Verif.Random.random_in_range",
    "Verif.Random.random_refused",
    "Verif.Random.generators",
    "Verif.Random.fair",
    "Verif.Random.never_zero",
    "Verif.Random.same_seed",
    "Verif.Random.least_seed_violated",
    "Verif.Random.large_range_violated"
   ],
   "note": "in range, ends, no bias in the reduction and no degeneration are proved; that all numbers of a large range can be returned is refuted; for small ranges it is not proved"
  },
  {
   "property": "C145",
   "status": "partial",
   "theorems": [
    "Verif.Bitcode.file_round_trip_partial",
    "Verif.Bitcode.file_whole",
    "Verif.Bitcode.signed_integer",
    "Verif.Bitcode.signed_double_partial",
    "Verif.Bitcode.signed_least_violated",
    "Verif.Bitcode.literal_violated",
    "Verif.Bitcode.redefinition_violated",
    "Verif.Bitcode.sequence_violated"
   ],
   "note": "proved for files below 16 gigabytes without literals from 128 on, names defined twice in a block and sequences before the last operand; these are refuted; BLOCKINFO is not modelled"
  },
  {
   "property": "C146",
   "status": "proved",
   "theorems": [
    "Verif.Glob.glob_matches",
    "Verif.Glob.glob_rounds",
    "Verif.Glob.glob_refused",
    "Verif.Glob.automaton",
    "Verif.Glob.last_dash_violated"
   ],
   "note": "the strings have codes below 256; a hyphen before the bracket that closes does not stand for itself, which the notion of a well written pattern takes into account"
  },
  {
   "property": "C147",
   "status": "proved",
   "theorems": [
    "Verif.Header.every_file",
    "Verif.Header.header_read",
    "Verif.Header.source_begins",
    "Verif.Header.header_refused",
    "Verif.Header.strip_spec",
    "Verif.Header.module_and_language",
    "Verif.Header.module_lines_violated"
   ],
   "note": "a module keyword with several strings is accepted and all but the first are ignored"
  },
  {
   "property": "C148",
   "status": "partial",
   "theorems": [
    "Verif.CmdLine.win_round_trip_partial",
    "Verif.CmdLine.win_newline_violated",
    "Verif.CmdLine.unix_round_trip_partial",
    "Verif.CmdLine.unix_apostrophe_violated",
    "Verif.CmdLine.unix_newline_violated"
   ],
   "note": "not so for an argument with a newline that is not quoted, and on Unix for one with an apostrophe"
  },
  {
   "property": "C149",
   "status": "partial",
   "theorems": [
    "Verif.CmdLine.shell_reads_partial",
    "Verif.CmdLine.shell_violated",
    "Verif.CmdLine.win_operators_partial",
    "Verif.CmdLine.win_operator_violated"
   ],
   "note": "not so for patterns, comments, home directories and newlines on Unix, and for operators after a backslash on Windows; arguments with a quotation mark are not covered on Windows"
  },
  {
   "property": "C150",
   "status": "partial",
   "theorems": [
    "Verif.Pool.tasks_in_order",
    "Verif.Pool.all_tasks_run",
    "Verif.Pool.none_started_when_stopped",
    "Verif.Pool.idle_violated"
   ],
   "note": "all but the last sentence is proved; a thread can sleep while a task waits, and this is proved; tasks that exit by other ways than returning are not modelled"
  },
  {
   "property": "C151",
   "status": "partial",
   "theorems": [
    "Verif.Pool.one_thread_partial",
    "Verif.Pool.limit_partial",
    "Verif.Pool.stop_violated",
    "Verif.Pool.limit_violated"
   ],
   "note": "proved for pools of one thread; refuted for larger ones, for which the number of tasks is at most the size times the number of starts"
  },
  {
   "property": "C152",
   "status": "proved",
   "theorems": [
    "Verif.Pool.blocking_queue"
   ],
   "note": ""
  },
  {
   "property": "C153",
   "status": "partial",
   "theorems": [
    "Verif.JamBuild.commands_in_order",
    "Verif.JamBuild.success",
    "Verif.JamBuild.failure_stops",
    "Verif.JamBuild.build_completes",
    "Verif.JamBuild.ignored_partial",
    "Verif.JamBuild.ignored_violated",
    "Verif.JamBuild.circle_violated"
   ],
   "note": "all but the last sentence is proved, the end of builds for graphs without circles; ignored failures are refuted before placeholders; how targets are expanded into the graph is not modelled"
  },
  {
   "property": "C154",
   "status": "partial",
   "theorems": [
    "Verif.JamBind.built_with_dependency",
    "Verif.JamBind.built_if_older_partial",
    "Verif.JamBind.fresh_not_built",
    "Verif.JamBind.built_only_if",
    "Verif.JamBind.pseudo_violated",
    "Verif.JamBind.not_found_violated"
   ],
   "note": "newer files are proved to be noticed through chains of files; through targets that are not files this is refuted, and so is the last sentence; included files and actions with several targets are not modelled"
  },
  {
   "property": "C155",
   "status": "partial",
   "theorems": [
    "Verif.TList.deque_partial",
    "Verif.TList.appended_violated",
    "Verif.TList.append_self_violated",
    "Verif.TList.behind_end_violated"
   ],
   "note": "proved for sequences that do not use a list after it was appended, append no list to itself and do not use the element just behind the end; each of the three is refuted; negative indices and default: are not modelled"
  },
  {
   "property": "C156",
   "status": "partial",
   "theorems": [
    "Verif.ClSeq.position_first",
    "Verif.ClSeq.position_none",
    "Verif.ClSeq.count_part",
    "Verif.ClSeq.substitute_exact",
    "Verif.ClSeq.remove_duplicates_last",
    "Verif.ClSeq.remove_duplicates_first",
    "Verif.ClSeq.remove_partial",
    "Verif.ClSeq.remove_end_violated",
    "Verif.ClSeq.remove_count_violated",
    "Verif.ClSeq.remove_from_end_violated"
   ],
   "note": "all is proved but cl-remove! with an end, a count or from the end, which is refuted"
  },
  {
   "property": "C157",
   "status": "proved",
   "theorems": [
    "Verif.JamExpand.expand_means",
    "Verif.JamExpand.contents_name",
    "Verif.JamExpand.contents_modified",
    "Verif.JamExpand.expand_plain",
    "Verif.JamExpand.expand_list",
    "Verif.JamExpand.expand_empty"
   ],
   "note": "for arguments in which a dollar sign before a parenthesis begins a variable and parentheses in variables are those of variables; what the modifiers themselves do is not modelled"
  },
  {
   "property": "C158",
   "status": "proved",
   "theorems": [
    "Verif.JamNames.grist_parts",
    "Verif.JamNames.grist_marked",
    "Verif.JamNames.grist_unmarked",
    "Verif.JamNames.grist_add",
    "Verif.JamNames.grist_add_back",
    "Verif.JamNames.words_unique",
    "Verif.JamNames.words_keep",
    "Verif.JamNames.split_words",
    "Verif.JamNames.tokenize_words",
    "Verif.JamNames.tokenize_join"
   ],
   "note": ""
  },
  {
   "property": "C159",
   "status": "partial",
   "theorems": [
    "Verif.JamSelect.select_none",
    "Verif.JamSelect.select_one",
    "Verif.JamSelect.select_tail",
    "Verif.JamSelect.select_range_partial",
    "Verif.JamSelect.select_range_zero",
    "Verif.JamSelect.select_backwards",
    "Verif.JamSelect.select_backwards_violated",
    "Verif.JamSelect.select_open_violated"
   ],
   "note": "ranges that run backwards by more than one are excluded: they signal an error"
  },
  {
   "property": "C160",
   "status": "partial",
   "theorems": [
    "Verif.JamMods.colon_means",
    "Verif.JamMods.colon_default_stops",
    "Verif.JamMods.grist_modifier",
    "Verif.JamMods.grist_modifier_parts",
    "Verif.JamMods.colon_between_violated"
   ],
   "note": "for modifiers without a colon between them where there is no replacement, which signals an error; a default, a join and a temporary file end the list; what the letters for parts of file names and for letter case do is not modelled"
  },
  {
   "property": "C161",
   "status": "partial",
   "theorems": [
    "Verif.JamLex.word_read",
    "Verif.JamLex.word_read_end_partial",
    "Verif.JamLex.quote_round_trip",
    "Verif.JamLex.gap_skipped",
    "Verif.JamLex.file_read",
    "Verif.JamLex.action_read",
    "Verif.JamLex.action_open",
    "Verif.JamLex.quoted_end_violated",
    "Verif.JamLex.open_end_violated",
    "Verif.JamLex.escaped_line_violated"
   ],
   "note": "a word that ends with a quote at the very end of a file is lost, and ends of lines after a backslash are not counted; the parser is not modelled"
  },
  {
   "property": "C162",
   "status": "partial",
   "theorems": [
    "Verif.JamScope.block_scope",
    "Verif.JamScope.rule_scope",
    "Verif.JamScope.for_all",
    "Verif.JamScope.for_break",
    "Verif.JamScope.assign_effect",
    "Verif.JamScope.on_scope",
    "Verif.JamScope.on_assignment_violated"
   ],
   "note": "all parts hold but the last: an assignment to a variable on a target, in a statement run on that target, is lost if the variable was set there before (on_assignment_violated); statements are functions of the variables that end; the parameters a rule names are different, and so are the variables of one assignment"
  }
 ]
}