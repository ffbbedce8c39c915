{
 "claims": [
  {
   "property": "C01",
   "status": "proved",
   "theorems": [
    "Verif.Mem.C01_blocks_disjoint",
    "Verif.Mem.C01_allocation_fresh",
    "Verif.Mem.C01_malloc_bytes",
    "Verif.Mem.C01_malloc_reserve_bytes",
    "Verif.Mem.Bitmap.rep_set",
    "Verif.Mem.Bitmap.rep_get",
    "Verif.Mem.Bitmap.rep_init"
   ],
   "note": "All histories of valid operations and of rejected frees that do not point strictly inside a live block."
  },
  {
   "property": "C02",
   "status": "proved",
   "theorems": [
    "Verif.Mem.C02_allocation_complete",
    "Verif.Mem.C02_malloc_reserve_complete",
    "Verif.Mem.C02_incomplete_after_rejected_free"
   ],
   "note": "Valid histories. The third theorem shows that a rejected free of a free word breaks completeness."
  },
  {
   "property": "C03",
   "status": "proved",
   "theorems": [
    "Verif.Mem.C03_free_live",
    "Verif.Mem.C03_num_free_exact",
    "Verif.Mem.C03_free_other"
   ],
   "note": ""
  },
  {
   "property": "C04",
   "status": "proved",
   "theorems": [
    "Verif.Mem.C04_shrink",
    "Verif.Mem.C04_shrink_noop",
    "Verif.Mem.C04_shrink_other"
   ],
   "note": ""
  },
  {
   "property": "C05",
   "status": "partial",
   "theorems": [
    "Verif.Mem.C05_violated",
    "Verif.Mem.C05_rejected_free_partial"
   ],
   "note": "The code violates the full property: freeing a pointer strictly inside a live block makes later allocations overlap it. Proved for all other rejected pointers."
  },
  {
   "property": "C06",
   "status": "partial",
   "theorems": [
    "Verif.Mem.C06_longest_free_partial",
    "Verif.Mem.C06_violated"
   ],
   "note": "Exact when the reserve is not exhausted; the code wraps around otherwise (witness)."
  },
  {
   "property": "C07",
   "status": "partial",
   "theorems": [
    "Verif.Heap.C07_gc_preserves",
    "Verif.Heap.C07_gc_preserves_no_arrays",
    "Verif.Heap.C07_gc_preserves_partial",
    "Verif.Heap.C07_full_stack_violated",
    "Verif.Heap.C07_empty_array_violated",
    "Verif.Heap.C07_const_env_violated"
   ],
   "note": "Full (total correctness) when the GC stack is large enough for the heap, and for any stack size when the heap holds no lisp arrays. Violated by the code when the stack runs full at a lisp array, for an empty lisp array, and for an environment in the constant heap (witnesses)."
  },
  {
   "property": "C08",
   "status": "partial",
   "theorems": [
    "Verif.Heap.C08_gc_reclaims",
    "Verif.Heap.C08_gc_reclaims_no_arrays",
    "Verif.Heap.C08_type_symbol_violated"
   ],
   "note": "Full under the same conditions as C07 and when no unreachable pair has a type symbol in its cdr; for such a pair the code releases memory the pair does not own (witness)."
  },
  {
   "property": "C09",
   "status": "partial",
   "theorems": [
    "Verif.Heap.C09_gc_terminates_partial",
    "Verif.Heap.C09_self_array_violated"
   ],
   "note": "Terminates for every heap whose lisp arrays are not nested in themselves without a pair in between; the code loops for an array that contains itself (witness)."
  },
  {
   "property": "C10",
   "status": "proved",
   "theorems": [
    "Verif.Heap.C10_allocate_cell",
    "Verif.Heap.C10_allocate_list",
    "Verif.Heap.C10_num_free"
   ],
   "note": "All histories of allocations, list allocations, writes to allocated cells and collections."
  },
  {
   "property": "C11",
   "status": "proved",
   "theorems": [
    "Verif.Val.C11_symbol",
    "Verif.Val.C11_unsigned",
    "Verif.Val.C11_char",
    "Verif.Val.C11_signed_general",
    "Verif.Val.C11_signed",
    "Verif.Val.C11_unboxed32",
    "Verif.Val.C11_boxed"
   ],
   "note": "Both builds. Word-level model of the encoders and decoders; float and double are bit patterns."
  },
  {
   "property": "C12",
   "status": "proved",
   "theorems": [
    "Verif.Val.C12_type_of",
    "Verif.Val.C12_tags_distinct",
    "Verif.Val.C12_cell_index",
    "Verif.Val.C12_set_ptr_type",
    "Verif.Val.C12_injective",
    "Verif.Val.C12_gc_bit",
    "Verif.Val.C12_predicates",
    "Verif.Val.C12_continuation_marker"
   ],
   "note": "Both builds."
  },
  {
   "property": "C13",
   "status": "partial",
   "theorems": [
    "Verif.Flat.C13_round_trip_partial",
    "Verif.Flat.C13_self_delimiting",
    "Verif.Flat.C13_injective",
    "Verif.Flat.C13_empty_lisp_array_violated",
    "Verif.Flat.C13_empty_byte_array_violated",
    "Verif.Flat.C13_long_list_refused"
   ],
   "note": "Proved for every serialisable value within the depth limit, both builds; false for empty arrays (witnesses)."
  },
  {
   "property": "C14",
   "status": "proved",
   "theorems": [
    "Verif.Flat.C14_size_exact",
    "Verif.Flat.C14_never_overruns",
    "Verif.Flat.C14_size_of_serialisable"
   ],
   "note": "Size arithmetic in C int is modelled without overflow."
  },
  {
   "property": "C15",
   "status": "partial",
   "theorems": [
    "Verif.Flat.C15_in_bounds_partial",
    "Verif.Flat.C15_terminates",
    "Verif.Flat.C15_array_length_violated",
    "Verif.Flat.C15_symbol_name_violated",
    "Verif.Flat.C15_no_memory_violated",
    "Verif.Flat.C15_count_wraps_violated"
   ],
   "note": "False for arbitrary buffers (four witnesses); proved for buffers whose declared lengths stay inside them."
  },
  {
   "property": "C50",
   "status": "proved",
   "theorems": [
    "Verif.Flat.C50_portable",
    "Verif.Flat.C50_same_number",
    "Verif.Flat.C50_same_unsigned",
    "Verif.Flat.C50_silent_out_of_memory_violated"
   ],
   "note": "With memory available; running out of memory while boxing is silent (witness)."
  },
  {
   "property": "C16",
   "status": "partial",
   "theorems": [
    "Verif.Tok.C16_bounded_fifo_partial",
    "Verif.Tok.C16_reads_in_order",
    "Verif.Tok.C16_far_peek_violated",
    "Verif.Tok.C16_column_violated"
   ],
   "note": "Proved for peeks at most 256 ahead; a farther peek wraps around the ring, and columns are counted differently on the first line (witnesses)."
  },
  {
   "property": "C17",
   "status": "partial",
   "theorems": [
    "Verif.Tok.C17_integer_literal",
    "Verif.Tok.C17_value",
    "Verif.Tok.C17_default_type",
    "Verif.Tok.C17_empty_hex_accepted",
    "Verif.Tok.C53_overflow"
   ],
   "note": "Hexadecimal literals of any length and decimal literals of up to 128 characters; longer decimal literals overflow a buffer (C53_overflow)."
  },
  {
   "property": "C18",
   "status": "partial",
   "theorems": [
    "Verif.Tok.C18_string_literal",
    "Verif.Tok.C18_too_long",
    "Verif.Tok.C18_only_literals_partial",
    "Verif.Tok.C18_open_never_accepts",
    "Verif.Tok.C18_lone_quote_accepted",
    "Verif.Tok.C18_unterminated_accepted",
    "Verif.Tok.C18_unknown_escape",
    "Verif.Tok.C18_buffered_stuck"
   ],
   "note": "Decoding proved for every literal of up to 256 characters. Unterminated literals are accepted at the end of the input in exactly two cases (witnesses). Through the buffered channel a literal of more than 254 characters can never be read."
  },
  {
   "property": "C19",
   "status": "proved",
   "theorems": [
    "Verif.Tok.C19_any_schedule",
    "Verif.Tok.C19_closed_terminates",
    "Verif.Tok.C19_ring_dispatch"
   ],
   "note": "Every interleaving of writes, close and reader steps; the channel as an ideal stream, with C19_ring_dispatch relating the ring buffer to it for one dispatch."
  },
  {
   "property": "C51",
   "status": "partial",
   "theorems": [
    "Verif.Tok.C51_string_channel",
    "Verif.Tok.C51_position",
    "Verif.Tok.C51_read_at_end_violated"
   ],
   "note": "Reads at the end of the text report success with a zero character (witness); everything else proved."
  },
  {
   "property": "C52",
   "status": "proved",
   "theorems": [
    "Verif.Tok.C52_symbol",
    "Verif.Tok.C52_symbol_too_long"
   ],
   "note": ""
  },
  {
   "property": "C53",
   "status": "partial",
   "theorems": [
    "Verif.Tok.C53_in_bounds_partial",
    "Verif.Tok.C53_name_buffer",
    "Verif.Tok.C53_overflow"
   ],
   "note": "False: a decimal number of more than 128 digits overflows fbuf. Proved for every other input."
  },
  {
   "property": "C54",
   "status": "proved",
   "theorems": [
    "Verif.Tok.C54_blanks_ignored",
    "Verif.Tok.C54_only_blanks"
   ],
   "note": ""
  },
  {
   "property": "C20",
   "status": "partial",
   "theorems": [
    "Verif.Env.C20_global_map",
    "Verif.Env.C20_define_succeeds",
    "Verif.Env.C20_lookup_innermost",
    "Verif.Env.C20_set_new",
    "Verif.Env.C20_set_bound",
    "Verif.Env.C20_copy",
    "Verif.Env.C20_copy_unaffected",
    "Verif.Env.C20_setassoc",
    "Verif.Env.C20_lbm_define_violated"
   ],
   "note": "Proved over the cons heap for all histories of define, lbm_define with memory available, assignment to bound variables, undefine, garbage collection and other heap activity. lbm_define in a full heap loses a bucket (C20_lbm_define_violated); failed assignments are C21."
  },
  {
   "property": "C21",
   "status": "partial",
   "theorems": [
    "Verif.Env.C21_failed_set_partial",
    "Verif.Env.C21_failed_set_violated",
    "Verif.Env.C21_failed_set_effect",
    "Verif.Env.C21_set_bound"
   ],
   "note": "The code violates it: a failed assignment makes every variable of the same bucket unbound. Exact effect proved."
  },
  {
   "property": "C22",
   "status": "proved",
   "theorems": [
    "Verif.Env.C22_undefine",
    "Verif.Env.C22_undefine_list",
    "Verif.Env.C22_after_failed_set_violated"
   ],
   "note": "All histories without failed assignments; after one, undefine can fail to remove a binding (witness)."
  },
  {
   "property": "C23",
   "status": "partial",
   "theorems": [
    "Verif.Defrag.C23_contents",
    "Verif.Defrag.C23_disjoint",
    "Verif.Defrag.C23_pool_collected_violated"
   ],
   "note": "Proved for all histories while the pool is live (pool at an address not below its own size in words). Violated when the pool itself is garbage collected while its arrays are held: arrays do not keep the pool alive (witness)."
  },
  {
   "property": "C24",
   "status": "proved",
   "theorems": [
    "Verif.Defrag.C24_alloc_iff",
    "Verif.Defrag.C24_alloc_cell",
    "Verif.Defrag.C24_search_only_first_hole"
   ],
   "note": "Iff, for all histories; the search itself inspects only the first hole (witness) and relies on the compaction."
  },
  {
   "property": "C25",
   "status": "proved",
   "theorems": [
    "Verif.Sym.C25_injective",
    "Verif.Sym.C25_alias_same",
    "Verif.Sym.C25_id_stable",
    "Verif.Sym.C25_name_stable",
    "Verif.Sym.C25_name_of_id",
    "Verif.Sym.C25_id_of_name",
    "Verif.Sym.C25_intern",
    "Verif.Sym.C25_intern_other",
    "Verif.Sym.C25_refused",
    "Verif.Sym.C25_read"
   ],
   "note": "At most 65536 extensions, names are C strings."
  },
  {
   "property": "C55",
   "status": "partial",
   "theorems": [
    "Verif.Sym.C55_register",
    "Verif.Sym.C55_register_succeeds",
    "Verif.Sym.C55_register_other",
    "Verif.Sym.C55_id_not_reused",
    "Verif.Sym.C55_clear",
    "Verif.Sym.C55_clear_wrong_violated"
   ],
   "note": "Proved for all histories; clearing a symbol that is not an extension clears an unrelated extension (witness)."
  },
  {
   "property": "C56",
   "status": "partial",
   "theorems": [
    "Verif.Sym.C56_builtin",
    "Verif.Sym.C56_named_inside",
    "Verif.Sym.C56_extension",
    "Verif.Sym.C56_u2sym_violated"
   ],
   "note": "Proved for symbols that have a name; violated for symbols made by u2sym, in every state."
  },
  {
   "property": "C26",
   "status": "partial",
   "theorems": [
    "Verif.Arith.C26_add",
    "Verif.Arith.C26_mul",
    "Verif.Arith.C26_sub",
    "Verif.Arith.C26_neg",
    "Verif.Arith.C26_comm",
    "Verif.Arith.C26_add_same",
    "Verif.Arith.C26_mul_same",
    "Verif.Arith.C26_sub_same",
    "Verif.Arith.C26_add_mixed_partial",
    "Verif.Arith.C26_add_exact",
    "Verif.Arith.C26_add_type_error",
    "Verif.Arith.C26_order_violated",
    "Verif.Arith.C26_overflow_violated",
    "Verif.Arith.C26_out_of_memory_violated"
   ],
   "note": "Two arguments of any integer types, and any number of arguments of which the first has the largest type: exact modulo the width (for a wrapping compiler, or without signed overflow). Sums of mixed types depend on the order (witness), signed overflow is undefined behaviour, and a sum goes on with an error symbol when the heap is full (witnesses)."
  },
  {
   "property": "C27",
   "status": "partial",
   "theorems": [
    "Verif.Arith.C27_divzero",
    "Verif.Arith.C27_div_partial",
    "Verif.Arith.C27_mod",
    "Verif.Arith.C27_div64_violated",
    "Verif.Arith.C27_divzero_u_violated",
    "Verif.Arith.C27_negative_u_violated",
    "Verif.Arith.C27_overflow_violated"
   ],
   "note": "Zero divisors for all types. Quotients and remainders with the conditions stated in the theorem; the violations show that each condition is needed: 64-bit dividends are cut to 32 bits, a 64-bit u divisor that is a multiple of 2^32 counts as zero, INT_MIN / -1 is undefined."
  },
  {
   "property": "C28",
   "status": "partial",
   "theorems": [
    "Verif.Arith.C28_leq",
    "Verif.Arith.C28_geq",
    "Verif.Arith.C28_numeq",
    "Verif.Arith.C28_lt_gt_partial",
    "Verif.Arith.C28_lt_gt_some",
    "Verif.Arith.C28_type_error",
    "Verif.Arith.C28_lt_violated",
    "Verif.Arith.C28_mixed_sign_violated"
   ],
   "note": "<=, >=, = and != with any number of arguments, < and > with two, for operands representable in the larger type. With three or more arguments < and > test whether SOME argument is greater (witness); negative numbers against unsigned ones compare wrongly (witness)."
  },
  {
   "property": "C57",
   "status": "partial",
   "theorems": [
    "Verif.Arith.C57_convert",
    "Verif.Arith.C57_roundtrip",
    "Verif.Arith.C57_symbol_violated"
   ],
   "note": "All integers and target types; what is not a number converts to 0 without an error (witness)."
  },
  {
   "property": "C58",
   "status": "partial",
   "theorems": [
    "Verif.Arith.C58_bitwise",
    "Verif.Arith.C58_not",
    "Verif.Arith.C58_shl",
    "Verif.Arith.C58_shr",
    "Verif.Arith.C58_shift_violated",
    "Verif.Arith.C58_byte_violated"
   ],
   "note": "All types but bytes (a type error) and all amounts from 0 to the machine width; other amounts are undefined behaviour (witness)."
  },
  {
   "property": "C29",
   "status": "partial",
   "theorems": [
    "Verif.Eq.C29_decides",
    "Verif.Eq.C29_eq",
    "Verif.Eq.C29_equivalence_partial",
    "Verif.Eq.C29_identical",
    "Verif.Eq.C29_opaque_violated",
    "Verif.Eq.C29_nan_violated"
   ],
   "note": "Symmetric and transitive on all finite values; reflexive on values without NaN and without opaque objects (channels, custom objects), which are not equal to themselves (witnesses). On values without floats equality is identity of the finite trees."
  },
  {
   "property": "C59",
   "status": "proved",
   "theorems": [
    "Verif.Eq.C59_assoc",
    "Verif.Eq.C59_cossa",
    "Verif.Eq.C59_assoc_not_a_pair",
    "Verif.Eq.C59_cossa_not_a_pair"
   ],
   "note": "A stored value that is the symbol no_match itself is reported as nil, as the theorem says."
  },
  {
   "property": "C30",
   "status": "partial",
   "theorems": [
    "Verif.Lists.C30_not_list",
    "Verif.Lists.C30_append_not_list",
    "Verif.Lists.C30_length",
    "Verif.Lists.C30_ix",
    "Verif.Lists.C30_drop",
    "Verif.Lists.C30_take",
    "Verif.Lists.C30_reverse",
    "Verif.Lists.C30_append",
    "Verif.Lists.C30_append_lists",
    "Verif.Lists.C30_range",
    "Verif.Lists.C30_rotate_partial",
    "Verif.Lists.C30_setix",
    "Verif.Lists.C30_arguments_kept",
    "Verif.Lists.C30_rotate_one_violated",
    "Verif.Lists.C30_range_wraps_violated",
    "Verif.Lists.C30_range_overflow_violated",
    "Verif.Lists.C30_setix_constant",
    "Verif.Eval.Builtin.C30_eval_length",
    "Verif.Eval.Builtin.C30_eval_drop",
    "Verif.Eval.Builtin.C30_eval_ix",
    "Verif.Eval.Builtin.C30_eval_take"
   ],
   "note": "length, ix, drop, take, reverse, append, setix for all lists in RAM and constant memory; range when the values fit an integer value; rotate for lists of two or more elements. rotate of a one-element list returns nil, range wraps at 28 bits on 32-bit builds and overflows for large spans (witnesses)."
  },
  {
   "property": "C31",
   "status": "proved",
   "theorems": [
    "Verif.Sort.C31_sort",
    "Verif.Sort.C31_sort_stable",
    "Verif.Sort.C31_sort_strict",
    "Verif.Sort.C31_sort_no_memory",
    "Verif.Sort.C31_merge",
    "Verif.Sort.C31_sort_unstable_strict",
    "Verif.Sort.C31_captured_env_violated"
   ],
   "note": "All lists and comparators; evaluating the comparator may do anything to the heap except write to the cells of the copy being sorted. Stable for <=; with < equal elements are swapped (theorem). The parameters of the comparator are assigned in its captured environment (witness)."
  },
  {
   "property": "C38",
   "status": "proved",
   "theorems": [
    "Verif.Ev.C38_fifo",
    "Verif.Ev.C38_push",
    "Verif.Ev.C38_pop",
    "Verif.Ev.C38_empty",
    "Verif.Ev.C38_not_ready",
    "Verif.Ev.C38_for_handler"
   ],
   "note": "For every queue created for at least one event (a queue of size 0 cannot be allocated)."
  },
  {
   "property": "C35",
   "status": "partial",
   "theorems": [
    "Verif.Mbox.C35_send",
    "Verif.Mbox.C35_newest",
    "Verif.Mbox.C35_receive",
    "Verif.Mbox.C35_receive_gc",
    "Verif.Mbox.C35_low_memory_violated"
   ],
   "note": "Sending and receiving are exact whenever the heap has room for the bindings; without memory the code blocks although a message matches (proved), so the property as stated is false in that case."
  },
  {
   "property": "C36",
   "status": "partial",
   "theorems": [
    "Verif.Mbox.C36_resize_partial",
    "Verif.Mbox.C36_resize_violated"
   ],
   "note": "Proved for sizes that hold the pending messages; for every smaller size the code writes outside of the new mailbox (proved)."
  },
  {
   "property": "C43",
   "status": "partial",
   "theorems": [
    "Verif.Mbox.C43_scope_partial",
    "Verif.Mbox.C43_scope_violated"
   ],
   "note": "Variables of the selected pattern and variables in no pattern of the recv are right; variables of patterns that failed half way leak into the selected body (proved witness)."
  },
  {
   "property": "C60",
   "status": "partial",
   "theorems": [
    "Verif.Mbox.C60_timed_out_partial",
    "Verif.Mbox.C60_timeout_violated"
   ],
   "note": "After the timeout it never blocks again; but any message that does not match restarts the wait with a duration computed from the encoded timeout word (proved for all such mailboxes)."
  },
  {
   "property": "C32",
   "status": "proved",
   "theorems": [
    "Verif.Sched.C32_one_place"
   ],
   "note": "For every sequence of the operations on queues listed in Verif.Sched.Op; operations are atomic (they hold qmutex or run on the evaluator thread)."
  },
  {
   "property": "C33",
   "status": "partial",
   "theorems": [
    "Verif.Sched.C33_fair_partial",
    "Verif.Sched.C33_fair_violated"
   ],
   "note": "Proved for processes that nobody kills; a process that others keep killing never runs (proved: for any number of rounds)."
  },
  {
   "property": "C34",
   "status": "partial",
   "theorems": [
    "Verif.Sched.C34_atomic_partial",
    "Verif.Sched.C34_atomic_violated"
   ],
   "note": "The code violates it: a context that ends in an atomic block stops all scheduling until a reset (proved for every continuation of the execution). Proved for executions without such an end."
  },
  {
   "property": "C37",
   "status": "partial",
   "theorems": [
    "Verif.Sched.C37_wake_partial",
    "Verif.Sched.C37_sleeps",
    "Verif.Sched.C37_wrap_violated",
    "Verif.Sched.C37_wide_violated"
   ],
   "note": "Exact wake-up when the clock is as wide as a word, except for one microsecond after the clock wraps; on 64-bit builds all sleepers wake when the 32-bit clock wraps (both proved)."
  },
  {
   "property": "C61",
   "status": "proved",
   "theorems": [
    "Verif.Sched.C61_unblock"
   ],
   "note": "All three ways to unblock share this part; what they do to the result register is not part of the property."
  },
  {
   "property": "C39",
   "status": "partial",
   "theorems": [
    "Verif.Eval.C39_value_partial",
    "Verif.Eval.C39_sized_partial",
    "Verif.Eval.C39_program_partial",
    "Verif.Eval.C39_deterministic_partial",
    "Verif.Eval.lookup_spec",
    "Verif.Eval.glookupLoop_spec",
    "Verif.Eval.modify_spec",
    "Verif.Eval.define_spec",
    "Verif.Eval.setvar_spec_partial",
    "Verif.Eval.copySpine_spec",
    "Verif.Eval.createLoc_spec",
    "Verif.Eval.fillLoc_spec",
    "Verif.Eval.fillLoc_mismatch"
   ],
   "note": "Proved against a big-step semantics (Verif.Eval.Spec) for all programs, for values, errors and whole programs, with unlimited stack and for every stack that is large enough. Missing: failing guards, loop, call-cc, errors that leave atomic blocks, malformed forms (where the code disagrees with the semantics, see C41, C42, C62-C64), message passing."
  },
  {
   "property": "C40",
   "status": "partial",
   "theorems": [
    "Verif.Eval.C40_tail_partial",
    "Verif.Eval.C40_constant_stack_partial"
   ],
   "note": "The stack is identical, not only as high; any number of iterations runs in a stack of fixed size. Missing: the features missing in C39."
  },
  {
   "property": "C41",
   "status": "partial",
   "theorems": [
    "Verif.Eval.C41_value_partial",
    "Verif.Eval.C41_error_partial",
    "Verif.Eval.C41_unwind_partial",
    "Verif.Eval.C41_fatal",
    "Verif.Eval.C41_spawn_trap_violated",
    "Verif.Eval.C41_escape_violated",
    "Verif.Eval.C41_define_violated",
    "Verif.Eval.C41_arity_violated",
    "Verif.Eval.C41_atomic_violated"
   ],
   "note": "Proved for all expressions of the semantics and for every machine state whose stack words above the handler are written. The code violates it in five ways (witnesses)."
  },
  {
   "property": "C42",
   "status": "partial",
   "theorems": [
    "Verif.Eval.C42_start_partial",
    "Verif.Eval.C42_body_partial",
    "Verif.Eval.C42_guard_partial",
    "Verif.Eval.C42_next_partial",
    "Verif.Eval.C42_start_tidy_partial",
    "Verif.Eval.C42_failed_guard_partial",
    "Verif.Eval.C42_failed_guard_violated",
    "Verif.Eval.C42_two_guards_violated"
   ],
   "note": "Proved for cases up to and after the first failing guard, the latter if the evaluation of the scrutinee ends in the environment of the match; otherwise, and after a second failing guard, the code uses an environment left over by another evaluation (witnesses)."
  },
  {
   "property": "C62",
   "status": "partial",
   "theorems": [
    "Verif.Eval.C62_loop_partial",
    "Verif.Eval.C62_loop_scope_violated",
    "Verif.Eval.C62_closure_violated"
   ],
   "note": "Proved for loops whose condition and body end in the environment of the loop (atoms, calls of built-in functions, if, cond, progn, and, or, setq of these). The code violates it for others: condition and body are evaluated in the environment that the last evaluation left over, for example that of a closure called at the end of the body (witnesses)."
  },
  {
   "property": "C63",
   "status": "partial",
   "theorems": [
    "Verif.Eval.C39_value_partial",
    "Verif.Eval.C63_var_env_violated",
    "Verif.Eval.C63_var_leak_violated"
   ],
   "note": "Proved (as part of C39) for var at the top level of a progn, or in an if, cond or macro there; var in the tail position of a let or a function body uses the environment of the enclosing progn (witnesses)."
  },
  {
   "property": "C64",
   "status": "partial",
   "theorems": [
    "Verif.Eval.C64_capture_partial",
    "Verif.Eval.C64_resume_partial",
    "Verif.Eval.C64_argument_scope_violated"
   ],
   "note": "Capture and resumption proved for all stacks; the argument is evaluated in the environment left over in the register (witness); a context with a smaller stack is C121, where the code violates it."
  },
  {
   "property": "C45",
   "status": "partial",
   "theorems": [
    "Verif.Buf.C45_set",
    "Verif.Buf.C45_get_partial",
    "Verif.Buf.C45_roundtrip_partial",
    "Verif.Buf.C45_outside_partial",
    "Verif.Buf.C45_not_writable",
    "Verif.Buf.C45_set_safe_partial",
    "Verif.Buf.C45_wrap_violated",
    "Verif.Buf.C45_index_violated",
    "Verif.Buf.C45_i32_violated",
    "Verif.Buf.C45_f32_set",
    "Verif.Buf.C45_f32_get_partial",
    "Verif.Buf.C45_f32_roundtrip_partial",
    "Verif.Buf.C45_f32_outside_partial",
    "Verif.Buf.C45_f32_small_violated",
    "Verif.Buf.C45_f32_inf_violated",
    "Verif.Buf.C45_f32_get_violated"
   ],
   "note": "All integer element types, both byte orders, both builds. The code violates it: on 32-bit builds an index of -1 passes the bounds test, the index is reduced modulo 2^32, and i32 elements are truncated to 28 bits (witnesses). f32 elements: float_to_u and u_to_float are modelled on IEEE patterns with rounding; exact for all finite floats of at least 1.5e-38; violated for smaller ones (stored as 0), -0.0, infinities (undefined behaviour), and for subnormal and NaN patterns that are read (witnesses)."
  },
  {
   "property": "C46",
   "status": "partial",
   "theorems": [
    "Verif.Buf.C46_bufclear_partial",
    "Verif.Buf.C46_bufclear_outside",
    "Verif.Buf.C46_bufclear_safe_partial",
    "Verif.Buf.C46_bufcpy_partial",
    "Verif.Buf.C46_bufcpy_outside",
    "Verif.Buf.C46_bufset_bit",
    "Verif.Buf.C46_buflen_partial",
    "Verif.Buf.C46_bufclear_violated",
    "Verif.Buf.C46_bufcpy_violated"
   ],
   "note": "The code violates it for overlapping copies within one buffer (memcpy) and for bufclear on buffers of 2^32 bytes or more (witnesses); proved otherwise for all integer arguments."
  },
  {
   "property": "C44",
   "status": "partial",
   "theorems": [
    "Verif.QQ.C44_template",
    "Verif.QQ.C44_evaluates_partial",
    "Verif.QQ.C44_machine_partial",
    "Verif.QQ.C44_splice_error",
    "Verif.QQ.C44_splice_tail_error",
    "Verif.QQ.C44_error_symbol_violated",
    "Verif.QQ.val_laws",
    "Verif.QQ.val_pure",
    "Verif.QQ.qqPrims_build"
   ],
   "note": "Proved for all templates and for every evaluator that satisfies four laws (quote, self-evaluating symbols, list, append), with effects in order; and end to end, from the template that was read to the value computed by the stack machine, for unquoted expressions without effects. Violated for error symbols: append fails if its result is one. Missing: memory exhaustion (append can leave an error symbol as code); templates in constant memory."
  },
  {
   "property": "C47",
   "status": "partial",
   "theorems": [
    "Verif.Flash.C47_regions_partial",
    "Verif.Flash.C47_write_once_partial",
    "Verif.Flash.C47_failed_write_violated",
    "Verif.Flash.C47_wrap_violated"
   ],
   "note": "Disjointness for all sequences of operations whose sizes do not wrap around, even with failing writes; at most one write per word in a working memory, for callers that write their cells once. The code violates it when a write fails (the words before it are written again) and when a size wraps around a machine word (witnesses)."
  },
  {
   "property": "C48",
   "status": "partial",
   "theorems": [
    "Verif.Flash.C48_move_partial",
    "Verif.Flash.C48_variables_partial",
    "Verif.Flash.C48_in_place_partial",
    "Verif.Flash.C48_empty_array_violated",
    "Verif.Flash.C48_defrag_violated",
    "Verif.Flash.C48_copied_violated"
   ],
   "note": "For all finite data of pairs, boxed numbers, byte arrays and non-empty arrays. The code violates it for empty arrays (undefined behaviour), for defragmentable memory (the constant list refers to RAM) and copies constant lists instead of leaving them in place (witnesses). The flash may become full; then it is proved that all variables still hold the same data."
  },
  {
   "property": "C49",
   "status": "partial",
   "theorems": [
    "Verif.Print.C49_roundtrip_partial",
    "Verif.Print.C49_print_partial",
    "Verif.Print.C49_text_determines",
    "Verif.Print.C49_program_partial",
    "Verif.Print.C49_upper_case_violated",
    "Verif.Print.C49_lisp_array_violated",
    "Verif.Print.C49_empty_lisp_array_violated",
    "Verif.Print.C49_large_array_violated",
    "Verif.Print.C49_long_string_violated",
    "Verif.Print.C49_looks_back_violated"
   ],
   "note": "Round trip through the models of the printer, tokenizer, reader, symbol table and structural equality, for all values of integers, symbols, strings, byte arrays and lists of any size, any buffer and any print stack: whenever printing reports success. The code violates it for symbols whose names are not symbol texts, strings of more than 256 characters, arrays larger than the reader's memory, arrays that begin with an unprintable byte (reads before the array), and lisp arrays (witnesses). Missing: floating point numbers; memory exhaustion and garbage collection while reading."
  },
  {
   "property": "C65",
   "status": "partial",
   "theorems": [
    "Verif.Str.C65_any_partial",
    "Verif.Str.C65_terminated_partial",
    "Verif.Str.C65_unterminated_violated",
    "Verif.Str.C65_empty_violated",
    "Verif.Str.C65_replicate_violated",
    "Verif.Str.C65_join_violated"
   ],
   "note": "Proved for arbitrary argument lists of str-len, str-part, str-find, letter case, to-str, str-from-n and, except for one count, str-replicate; for arrays that contain a zero also for the others. The code violates it for arrays without a zero, the empty array, the count 2^32-1 and, on 32-bit builds, for joined strings of 4 GiB or more (witnesses). Missing: str-from-n with a format, which is passed to snprintf."
  },
  {
   "property": "C66",
   "status": "proved",
   "theorems": [
    "Verif.Str.C66_len",
    "Verif.Str.C66_part",
    "Verif.Str.C66_join",
    "Verif.Str.C66_case",
    "Verif.Str.C66_replicate",
    "Verif.Str.C66_part_join"
   ],
   "note": "For every behaviour of the allocator. str-join needs a delimiter that contains a zero and a result that is smaller than 2^w (C65)."
  },
  {
   "property": "C67",
   "status": "proved",
   "theorems": [
    "Verif.Str.C67_split",
    "Verif.Str.C67_unique"
   ],
   "note": "For arrays of at most 2^30 bytes that contain a zero (C65); the specification determines the list."
  },
  {
   "property": "C68",
   "status": "proved",
   "theorems": [
    "Verif.Str.C68_replace",
    "Verif.Str.C68_unique"
   ],
   "note": "For arrays that contain a zero (C65) and results smaller than 2^w; the specification determines the text."
  },
  {
   "property": "C69",
   "status": "proved",
   "theorems": [
    "Verif.Str.C69_cmp"
   ],
   "note": "For arrays that contain a zero (C65)."
  },
  {
   "property": "C70",
   "status": "partial",
   "theorems": [
    "Verif.Str.C70_find",
    "Verif.Str.C70_first",
    "Verif.Str.C70_left_empty_violated"
   ],
   "note": "Exact result for all options; the number of the occurrence is reduced modulo 2^32. The code violates the last sentence: an empty pattern with 'left is found behind the terminator (witness)."
  },
  {
   "property": "C71",
   "status": "partial",
   "theorems": [
    "Verif.Str.C71_from_n_partial",
    "Verif.Str.C71_to_i_partial",
    "Verif.Str.C71_digits",
    "Verif.Str.C71_roundtrip_partial",
    "Verif.Str.C71_wide_violated",
    "Verif.Str.C71_large_violated"
   ],
   "note": "Proved for integers between -2^31 and 2^31-1, all bases. The code violates it for other integers: str-from-n prints them modulo 2^32, str-to-i saturates on 32-bit builds and wraps on 64-bit builds (witnesses). Floating point numbers and formats are not modelled."
  },
  {
   "property": "C72",
   "status": "partial",
   "theorems": [
    "Verif.Str.C72_to_str_partial",
    "Verif.Str.C72_no_arguments_violated",
    "Verif.Str.C72_empty_violated"
   ],
   "note": "Proved for at least one argument with nonempty texts; the text of a value is a parameter (C49). The code violates it without arguments (a byte of uninitialised memory) and for empty texts at the beginning (witnesses)."
  },
  {
   "property": "C73",
   "status": "proved",
   "theorems": [
    "Verif.Gc.gc_invisible",
    "Verif.Gc.gc_invisible_lists",
    "Verif.Gc.gc_schedule_invisible",
    "Verif.Gc.gc_atom",
    "Verif.Gc.builtin_sim"
   ],
   "note": "For the evaluator of Verif.Eval (one context, no exhaustion of memory), executions without undefined behaviour. The fundamental operations are a parameter with the hypothesis that they are insensitive to the collector (PSim); builtin_sim shows it for the list functions of C122, gc_invisible_lists is the theorem without the hypothesis for these."
  },
  {
   "property": "C74",
   "status": "partial",
   "theorems": [
    "Verif.Gc.event_define_violated",
    "Verif.Gc.event_define_partial"
   ],
   "note": "The code violates it: the value is not among the roots and is freed (witness). Proved for first definitions of numbers, symbols and of values that are referred to elsewhere."
  },
  {
   "property": "C75",
   "status": "partial",
   "theorems": [
    "Verif.Img.imgBuffer_ok",
    "Verif.Img.drawing_safe_image",
    "Verif.Img.drawing_safe_partial",
    "Verif.Img.drawing_forged",
    "Verif.Img.drawing_forged_wrap",
    "Verif.Img.drawing_overflow",
    "Verif.Img.drawing_overflow_line"
   ],
   "note": "All sequences of calls of img-setpix, img-clear, img-line, img-rectangle, img-circle, img-triangle and img-blit with numbers up to 8000 on images made by img-buffer, or on any array that is large enough. The code violates it for arrays made otherwise (the size is rounded down and computed modulo 2^32) and for large numbers (signed overflow), witnesses. Missing: arcs (and rounded outlines and dotted circles, which use them) and text."
  },
  {
   "property": "C76",
   "status": "partial",
   "theorems": [
    "Verif.Img.setpix_partial",
    "Verif.Img.setpix_get_partial",
    "Verif.Img.setpix_red_lost",
    "Verif.Img.setpix_bleeds",
    "Verif.Img.setpix_wraps"
   ],
   "note": "For all images and formats. The code violates it: rgb565 loses red, colour numbers that are too large change a neighbouring pixel, coordinates are reduced modulo 65536 (witnesses)."
  },
  {
   "property": "C77",
   "status": "partial",
   "theorems": [
    "Verif.Img.clear_partial",
    "Verif.Img.clear_quarter",
    "Verif.Img.clear_565_incomplete",
    "Verif.Img.clear_two_black"
   ],
   "note": "All formats but rgb565, of which the code clears a quarter only (proved exactly, witness); in black and white images colours from 2 on are treated differently from img-setpix (witness)."
  },
  {
   "property": "C78",
   "status": "partial",
   "theorems": [
    "Verif.Img.rectangle_partial",
    "Verif.Img.triangle_partial",
    "Verif.Img.rectangle_wraps"
   ],
   "note": "Exact, for corners of triangles up to 16000 (beyond, products overflow, see C75) and rectangles that do not reach column or row 65536, where coordinates wrap around (witness)."
  },
  {
   "property": "C79",
   "status": "partial",
   "theorems": [
    "Verif.Img.line_partial",
    "Verif.Img.line_thick_partial",
    "Verif.Img.line_dotted_partial",
    "Verif.Img.triangle_outline_partial",
    "Verif.Img.line_misses_end"
   ],
   "note": "The code violates it: exactly the lines with |dy| < |dx| <= 2|dy| miss their second end (proved, witness). Everything else proved for ends up to 2^27."
  },
  {
   "property": "C80",
   "status": "partial",
   "theorems": [
    "Verif.Img.blit_partial",
    "Verif.Img.blit_same_partial",
    "Verif.Img.blit_red_lost"
   ],
   "note": "Source and destination are different arrays. The code violates it for rgb565, where red is lost (witness). Rotation and scaling: C113."
  },
  {
   "property": "C81",
   "status": "partial",
   "theorems": [
    "Verif.Img.circle_partial",
    "Verif.Img.circle_crooked",
    "Verif.Img.circle_leaks",
    "Verif.Img.circle_thick_partial",
    "Verif.Img.circle_thick_violated"
   ],
   "note": "The exact set of pixels for all radii up to 32767, and for thick circles up to radius 2001. The code violates it: the outline leaves out the diagonals, so that it has holes, filled circles of radius up to 4 and thick ones are centred between pixels (witnesses), and every thick circle with a radius above 2001 is hollow (circle_thick_violated). Missing: dotted circles."
  },
  {
   "property": "C82",
   "status": "partial",
   "theorems": [
    "Verif.Img.rectangle_outline_partial",
    "Verif.Img.rectangle_outline_larger"
   ],
   "note": "The exact set of pixels for all sizes. The code violates it: the outline is one column and one row larger than the filled rectangle, and its last corner is missing (witness)."
  },
  {
   "property": "C83",
   "status": "partial",
   "theorems": [
    "Verif.Img.text_partial",
    "Verif.Img.text_font_overrun",
    "Verif.Img.text_font_zero"
   ],
   "note": "All fonts with 1 or 2 bits per pixel whose characters lie in the array, all strings of up to 2^21 characters. The code violates the rest: arrays of 254 bytes that are no fonts are read behind their end or lead to a division by zero (witnesses)."
  },
  {
   "property": "C84",
   "status": "partial",
   "theorems": [
    "Verif.Img.gradient_partial",
    "Verif.Img.precalc_partial",
    "Verif.Img.gradient_mirror_partial",
    "Verif.Img.gradient_half_partial",
    "Verif.Img.gradient_mirror_violated",
    "Verif.Img.gradient_no_width",
    "Verif.Img.precalc_mirrored",
    "Verif.Img.gradient_negative"
   ],
   "note": "Positions up to 6000000. The code violates the rest: a width of 0 is a division by zero, mirrored precalculated gradients differ from the gradient, and a gradient does not repeat itself before its offset (witnesses)."
  },
  {
   "property": "C85",
   "status": "partial",
   "theorems": [
    "Verif.Set.member_spec",
    "Verif.Set.insert_spec",
    "Verif.Set.union_partial",
    "Verif.Set.refused",
    "Verif.Set.nan_twice"
   ],
   "note": "The code violates it for values that are not equal to themselves (NaN, channels): they are not found and inserted again (witness). Missing: how many cells set-union needs is bounded by n(n+m), not given exactly."
  },
  {
   "property": "C86",
   "status": "proved",
   "theorems": [
    "Verif.Eval.C86_sound",
    "Verif.Eval.cellPrims_local",
    "Verif.Eval.fine_steps"
   ],
   "note": "The condition on the built-in functions (Local) is proved for the functions on lists of C122; for others it is a hypothesis."
  },
  {
   "property": "C87",
   "status": "proved",
   "theorems": [
    "Verif.Eval.C87_untouched",
    "Verif.Eval.cellPrims_local",
    "Verif.Eval.fine_steps"
   ],
   "note": "The condition on the built-in functions (Local) is proved for the functions on lists of C122; for others it is a hypothesis."
  },
  {
   "property": "C88",
   "status": "proved",
   "theorems": [
    "Verif.Eval.C88_map",
    "Verif.Eval.C88_quote_violated"
   ],
   "note": "For closures and built-in functions. For other things that can be applied, such as quote or macros, the calls of map are visible in the result and change it (witness)."
  },
  {
   "property": "C89",
   "status": "partial",
   "theorems": [
    "Verif.Heap.C89_mark_phase_partial",
    "Verif.Heap.C89_gc_partial",
    "Verif.Heap.C89_channel_violated",
    "Verif.Heap.C89_continuation_violated"
   ],
   "note": "The code violates it for channels that depend on a buffer in the heap and for saved continuations (witnesses); proved without them. The C stack that the recursive calls for nested arrays need is not modelled."
  },
  {
   "property": "C90",
   "status": "proved",
   "theorems": [
    "Verif.Eval.C90_collections",
    "Verif.Eval.C90_goes_on",
    "Verif.Eval.C90_reuse",
    "Verif.Eval.C90_atomic_result",
    "Verif.Eval.C90_list_result",
    "Verif.Eval.ro_step",
    "Verif.Eval.cellPrims_blind"
   ],
   "note": "Collections may move what is in use and overwrite everything else between any two steps. The condition on the built-in functions (Blind) is proved for the functions on lists and numbers of C122; for others it is a hypothesis. In C90_reuse the counter of the model may go down, and the interrupted program is assumed to end. That the collector keeps what is in use is C07 and C73; running out of memory is not modelled."
  },
  {
   "property": "C91",
   "status": "partial",
   "theorems": [
    "Verif.Print.C91_read_accepts",
    "Verif.Print.C91_read_accepts_only_partial",
    "Verif.Print.C91_program_accepts",
    "Verif.Print.C91_program_accepts_only_partial",
    "Verif.Print.C91_ends",
    "Verif.Print.C91_unambiguous",
    "Verif.Print.C91_program_unambiguous",
    "Verif.Print.C91_read_gives",
    "Verif.Print.C91_quoted_bracket_violated",
    "Verif.Print.C91_stray_array_bracket_violated",
    "Verif.Print.C91_mixed_brackets_violated",
    "Verif.Print.C91_rest_ignored_violated",
    "Verif.Print.C91_blank_violated"
   ],
   "note": "Every well-formed text is read as what it says, reading ends, and the grammar is unambiguous. What else is accepted is described exactly by the loose grammar: the reader takes any closing bracket for any opening one, takes stray brackets and dots for symbols in some places, and ignores what follows an extra closing bracket of a program. Not covered: backquote, incremental reading, memory exhaustion; undefined behaviour of the tokenizer is C53."
  },
  {
   "property": "C92",
   "status": "partial",
   "theorems": [
    "Verif.Ctl.C92_paused_quiet_partial",
    "Verif.Ctl.C92_no_deadlock",
    "Verif.Ctl.C92_requests_take_effect_partial",
    "Verif.Ctl.C92_pause_collects_partial",
    "Verif.Ctl.C92_paused_quiet_violated",
    "Verif.Ctl.C92_reset_pauses_violated",
    "Verif.Ctl.C92_pause_collects_violated"
   ],
   "note": "All interleavings of one other thread with the evaluator, under the condition that no request is written between the moment at which the evaluator has read another request and the moment at which it has carried it out. The code violates it otherwise, also for a thread that waits for the effect of each request: it can report that it is paused and go on with evaluation for ever (witness). After a reset the evaluator is not paused (witness), and a second request to pause cancels the garbage collection of the first (witness). Sequential consistency is assumed."
  },
  {
   "property": "C93",
   "status": "proved",
   "theorems": [
    "Verif.Eval.C93_same_result",
    "Verif.Eval.C93_common_data",
    "Verif.Eval.C93_changes_are_seen"
   ],
   "note": "Model of the contexts with one store; after any step any context may go on, unless another one is in an atomic block. The first theorem is for all schedules, with collections and new processes in between; the second gives a condition on the initial state (there without collections, new processes and captured continuations). The third shows that the condition is needed. Messages and blocking operations are not part of this model (see C35, C36, C60)."
  },
  {
   "property": "C94",
   "status": "partial",
   "theorems": [
    "Verif.Proc.C94_memory_given_back",
    "Verif.Proc.C94_failed_create",
    "Verif.Proc.C94_ids_distinct",
    "Verif.Proc.C94_id_reused_violated"
   ],
   "note": "Contexts over the model of the word memory of C01-C06, all histories. The blocks are disjoint and all words are accounted for, also after failed creations. Ids of live processes differ, but ids are used again: a message to a process that has ended can reach another one."
  },
  {
   "property": "C95",
   "status": "partial",
   "theorems": [
    "Verif.Proc.C95_exit_ok",
    "Verif.Proc.C95_exit_error",
    "Verif.Proc.C95_at_most_one",
    "Verif.Proc.C95_self_kill_violated",
    "Verif.Proc.C95_no_memory_violated",
    "Verif.Proc.C95_stranger_violated"
   ],
   "note": "With a parent that exists and three free cells the message arrives, once, at the parent and nowhere else. Violated: (kill (self) v) sends nothing, with fewer than three free cells an error is silent, and if the parent has ended the message goes to the process that got its id. That the message can be pushed out of a full mailbox is in C36."
  },
  {
   "property": "C96",
   "status": "partial",
   "theorems": [
    "Verif.Eval.C96_spawn_is_call_partial",
    "Verif.Eval.C96_missing_argument_violated",
    "Verif.Eval.C96_rest_args_violated"
   ],
   "note": "For the right number of arguments, any schedule and collections. Missing: programs outside of the semantics of C39, spawn-trap. Violated: with too few arguments one parameter is bound to the word above the stack, and with too many the rest is lost; a call reports an error in the first case and binds rest-args in the second."
  },
  {
   "property": "C97",
   "status": "partial",
   "theorems": [
    "Verif.Eval.C97_eval_program_partial",
    "Verif.Eval.C97_environment_violated",
    "Verif.Eval.C97_error_violated",
    "Verif.Eval.C97_escape_violated"
   ],
   "note": "For expressions that have values in the semantics of C39, all but the first of them without local variables. Violated: all but the first expression are evaluated in the empty environment; after an error that is trapped, or an escape through a continuation, the rest of the inner program is still in the program register: it is evaluated after the outer one, and its (app-cont) takes the last word from the stack."
  },
  {
   "property": "C98",
   "status": "partial",
   "theorems": [
    "Verif.Custom.C98_destructor_once",
    "Verif.Custom.C98_collect",
    "Verif.Custom.C98_destruct",
    "Verif.Custom.C98_create",
    "Verif.Custom.C98_leak_violated",
    "Verif.Custom.C98_vector_violated"
   ],
   "note": "All histories. Violated: the block of a value destructed by custom-destruct is never given back; vector and matrix functions do not look at whether the creation succeeded: they read through a null pointer, or lose the memory of the numbers. Effects of destructors on memory are not modelled."
  },
  {
   "property": "C99",
   "status": "partial",
   "theorems": [
    "Verif.Lists.C99_mkarray_partial",
    "Verif.Lists.C99_ix",
    "Verif.Lists.C99_setix",
    "Verif.Lists.C99_array_to_list",
    "Verif.Lists.C99_list_to_array_partial",
    "Verif.Lists.C99_round_trip",
    "Verif.Lists.C99_mkarray_wraps_violated",
    "Verif.Lists.C99_empty_violated"
   ],
   "note": "Violated: in the 32 bit build mkarray with 2^30 elements or more gives a smaller array without an error; the empty list has no array, list-to-array gives nil. Empty arrays from (mkarray 0) are not covered by the mkarray theorem: the next collection reads outside of them (C07). Indices are integers in the range of int32."
  },
  {
   "property": "C100",
   "status": "partial",
   "theorems": [
    "Verif.Sched.C100_start",
    "Verif.Sched.C100_poll",
    "Verif.Sched.C100_returns_partial",
    "Verif.Sched.C100_self",
    "Verif.Sched.C100_reuse_violated"
   ],
   "note": "All executions of the scheduler of C32. A poll returns exactly if no process has the id. The wait ends if the id is not used again. Violated otherwise: the id is the place of the context in memory, and a wait goes on for any other process that is created there. A process that waits for itself waits for ever. One microsecond more than 50 ms if the clock has wrapped (C37)."
  },
  {
   "property": "C101",
   "status": "partial",
   "theorems": [
    "Verif.LoopExt.C101_expansion",
    "Verif.LoopExt.C101_for_scope_partial",
    "Verif.LoopExt.C101_for_partial",
    "Verif.LoopExt.C101_while_partial",
    "Verif.LoopExt.C101_range",
    "Verif.LoopExt.C101_break_partial",
    "Verif.LoopExt.C101_foreach_scope_partial",
    "Verif.LoopExt.C101_foreach_elements",
    "Verif.LoopExt.C101_foreach_partial",
    "Verif.LoopExt.C101_foreach_nil_violated",
    "Verif.LoopExt.C101_foreach_twice_violated",
    "Verif.LoopExt.C101_update_first_violated",
    "Verif.LoopExt.C101_capture_violated"
   ],
   "note": "All bodies, environments, continuations and numbers of iterations, on the machine of C39, for parts that end with a value and neither write to the code of the loop nor assign to its names. Violated: loopforeach stops at an element that is nil and evaluates its list once before the loop and again with it; the update of loopfor is done before the body; variables called a01, a02, a03, a04 or break are captured."
  },
  {
   "property": "C102",
   "status": "partial",
   "theorems": [
    "Verif.Stack.C102_stack",
    "Verif.Stack.C102_max_partial",
    "Verif.Stack.C102_max_violated",
    "Verif.Stack.C102_pop_violated"
   ],
   "note": "All histories and sizes, by refinement to a list, where no pop is done with too few words. Violated: lbm_pop does not check for an empty stack; the reported largest use misses words equal to the filler."
  },
  {
   "property": "C103",
   "status": "partial",
   "theorems": [
    "Verif.Prof.C103_profile",
    "Verif.Prof.C103_keys",
    "Verif.Prof.C103_short_names",
    "Verif.Prof.C103_total",
    "Verif.Prof.C103_init_violated",
    "Verif.Prof.C103_full_violated",
    "Verif.Prof.C103_long_violated"
   ],
   "note": "All sequences of samples and table sizes; exact contents of the table. Violated: lbm_prof_init returns false also when it succeeded; processes first seen with a full table have no entry and their samples are in no count; names are compared by 19 bytes."
  },
  {
   "property": "C104",
   "status": "partial",
   "theorems": [
    "Verif.Print.C104_incremental",
    "Verif.Print.C104_program",
    "Verif.Print.C104_rest_not_ignored",
    "Verif.Print.C104_stray_bracket_violated",
    "Verif.Print.C104_last_value_violated"
   ],
   "note": "All texts, worlds and evaluators (a parameter that keeps the symbol table in order); exactly which expressions are evaluated and how it ends. For well-formed texts the same expressions as C91. Violated: a lone ] is evaluated as a symbol; a last value that is a symbol of the reader ends in an error. Left out: streams that are fed while the program runs, collections while reading, and that reading can run out of heap."
  },
  {
   "property": "C105",
   "status": "partial",
   "theorems": [
    "Verif.Rand.C105_reproducible",
    "Verif.Rand.C105_bad_seed",
    "Verif.Rand.C105_period_partial",
    "Verif.Rand.C105_fixed_violated",
    "Verif.Rand.C105_short_violated",
    "Verif.Rand.C105_initial_violated"
   ],
   "note": "All seeds and histories. On 64 bits the exact period, for all seeds but one class, from the primality of the modulus and the order of the multiplier. Violated: (seed 194187152) gives the same number for ever; on 32 bits the product wraps before the remainder is taken, the results from the initial seed repeat after 18535 calls and those from (seed 32620102) after 28."
  },
  {
   "property": "C106",
   "status": "partial",
   "theorems": [
    "Verif.Host.C106_load",
    "Verif.Host.C106_define",
    "Verif.Host.C106_define_refused",
    "Verif.Host.C106_eval_defined",
    "Verif.Host.C106_no_collection_violated"
   ],
   "note": "All heaps with an intact free list, all histories of the global environment and of the symbol table. Violated in spirit: with a heap full of garbage the functions fail, no collection is tried. The creation of the process is C94; the evaluation of the program C39, C91 and C104."
  },
  {
   "property": "C107",
   "status": "partial",
   "theorems": [
    "Verif.Eval.C107_step_partial",
    "Verif.Eval.C107_history_partial",
    "Verif.Eval.C107_ub_partial",
    "Verif.Eval.C107_app_cont_violated",
    "Verif.Eval.C107_escape_violated",
    "Verif.Eval.C107_stale_violated"
   ],
   "note": "All expressions, environments, stores, stack sizes and histories of steps of the evaluator model (with eval-program) in which the internal form [appcont] is evaluated only at the end of a program of eval-program. Violated by programs that make that form with str2sym, and by jumps to a continuation out of eval-program. C107_ub_partial lists what else can go wrong in a step: environments, patterns or program lists that are not lists, continuations that call-cc did not make, and errors raised between the reservation of words and their writing (C41)."
  },
  {
   "property": "C108",
   "status": "proved",
   "theorems": [
    "Verif.Jpg.C108_bits",
    "Verif.Jpg.C108_word",
    "Verif.Jpg.C108_unique",
    "Verif.Jpg.C108_values",
    "Verif.Jpg.C108_file",
    "Verif.Jpg.C108_factors",
    "Verif.Jpg.C108_zigzag"
   ],
   "note": "C108_file: every file that the small encoder of Spec.lean (Picture.file: segments, Huffman codes, zigzag, prediction of the first coefficient, stuffing, padding) makes is rendered as the pixels of Picture.rects. The inverse transform is a parameter (all functions from 64 values to 64 values). A product that does not fit into 32 bits is excluded where it is undefined behaviour (Exact). C108_bits and C108_word hold for every input, also for one that ends or has a marker in the middle."
  },
  {
   "property": "C109",
   "status": "partial",
   "theorems": [
    "Verif.Jpg.C109_prepare",
    "Verif.Jpg.C109_decomp_partial",
    "Verif.Jpg.C109_truncated_violated",
    "Verif.Jpg.C109_overflow_violated"
   ],
   "note": "Proved for all byte arrays when the preparation ends well and on machines that cut products of 32 bits. Violated by disp-render-jpg: it ignores the result of jd_prepare, so a file that is cut off behind the start of the frame is decoded through null pointers; and by signed overflow in the product of a coefficient and its factor."
  },
  {
   "property": "C110",
   "status": "partial",
   "theorems": [
    "Verif.Jpg.C110_clip",
    "Verif.Jpg.C110_colour",
    "Verif.Jpg.C110_clip_violated"
   ],
   "note": "For values from -512 to 511, and colours within 1.1 of the standard. Violated for larger values: the table is indexed by the value modulo 1024, so 512 is shown black."
  },
  {
   "property": "C111",
   "status": "partial",
   "theorems": [
    "Verif.Matvec.C111_vector",
    "Verif.Matvec.C111_vector_error",
    "Verif.Matvec.C111_list_to_vector",
    "Verif.Matvec.C111_vector_to_list",
    "Verif.Matvec.C111_round_trip",
    "Verif.Matvec.C111_list_memory_violated",
    "Verif.Matvec.C111_vproj",
    "Verif.Matvec.C111_vproj_violated",
    "Verif.Matvec.C111_axpy",
    "Verif.Matvec.C111_vmult",
    "Verif.Matvec.C111_dot",
    "Verif.Matvec.C111_lengths",
    "Verif.Matvec.C111_list_to_matrix",
    "Verif.Matvec.C111_zero_columns_violated",
    "Verif.Matvec.C111_matrix_to_list",
    "Verif.Matvec.C111_safe_partial",
    "Verif.Matvec.C111_custom_violated"
   ],
   "note": "All numbers, sizes below 2^30 and arguments; floating point arithmetic is a parameter. C111_safe_partial is an invariant over any history of calls. Violated: a matrix of zero columns is a division by zero; without memory for the custom value the functions write through nil; vproj reduces the index modulo 2^32; vector-to-list reports a type error, not missing memory, when the heap has too few free cells, so no collection is tried."
  },
  {
   "property": "C112",
   "status": "partial",
   "theorems": [
    "Verif.Img.rounded_partial",
    "Verif.Img.rounded_larger",
    "Verif.Img.rounded_bound"
   ],
   "note": "Exact for radii up to 4. For larger radii the code violates it: the disks are centred on a pixel, so the shape reaches one column and one row further than the rectangle (witness), never more (rounded_bound). Missing: rounded outlines, which use arcs."
  },
  {
   "property": "C113",
   "status": "partial",
   "theorems": [
    "Verif.Img.scale_partial",
    "Verif.Img.enlarge_partial",
    "Verif.Img.scale_fringe_violated",
    "Verif.Img.scale_fringe_example",
    "Verif.Img.scale_zero_violated",
    "Verif.Img.turn_partial",
    "Verif.Img.turn_any_partial"
   ],
   "note": "Images of the same format other than rgb565 (there red is lost, C80), positions up to 100000. The conversions from float to int, the sine and the cosine are parameters. The code violates it: places are rounded towards zero, so an enlarged picture has its first row and column nearly twice as large, reaching beyond the position (scale_fringe_violated, for every factor); a scale below 0.001 is a division by zero."
  },
  {
   "property": "C114",
   "status": "partial",
   "theorems": [
    "Verif.Img.Args.C114_accept",
    "Verif.Img.Args.C114_reject_partial",
    "Verif.Img.Args.C114_ninth_violated",
    "Verif.Img.Args.C114_fourth_violated"
   ],
   "note": "Calls that must be taken are, for every function (none needs more than eight numbers). Other calls are refused when they have at most eight numbers and their lists at most four elements. The code violates the rest: the bounds are checked after the write, so a ninth number, and a fourth number of an attribute, is written behind the array it belongs to. A call without arguments is not modelled (it reads the first argument)."
  },
  {
   "property": "C115",
   "status": "partial",
   "theorems": [
    "Verif.Chat.C115_safe",
    "Verif.Chat.C115_waits_partial",
    "Verif.Chat.C115_send",
    "Verif.Chat.C115_received_partial",
    "Verif.Chat.C115_low_memory_violated"
   ],
   "note": "The scheduler of C32 and the mailboxes of C35 together, all executions from the start. Each recv has enough free cells to look through the messages; the code violates the claim otherwise: the process blocks although a message fits. The process is not killed, no reset, and fewer messages are sent to it than its mailbox holds (C33, C35). How long recv-to waits is C60."
  },
  {
   "property": "C116",
   "status": "partial",
   "theorems": [
    "Verif.Post.C116_safe",
    "Verif.Post.C116_accept",
    "Verif.Post.C116_deliver",
    "Verif.Post.C116_buffers",
    "Verif.Post.C116_process",
    "Verif.Post.C116_received_partial",
    "Verif.Post.C116_dead_handler_violated"
   ],
   "note": "The event queue of C38, the processes of C115 and the buffers together, all executions from the start. Violated by the code: an event for a handler that has ended is accepted and goes nowhere. A value for which there is no memory arrives as eval_error. Receiving has the conditions of C115. What a flat value stands for is C13 to C15, what a definition does is C20 and C74."
  },
  {
   "property": "C117",
   "status": "partial",
   "theorems": [
    "Verif.Env.C117_get",
    "Verif.Env.C117_set",
    "Verif.Env.C117_set_rejected",
    "Verif.Env.C117_extend",
    "Verif.Env.C117_restore_partial",
    "Verif.Env.C117_snapshot_violated"
   ],
   "note": "Over all histories of the global environment, which now include env-set (so C20 to C22 hold for them too). env-set is covered for environments that fit the bucket; the code stores anything. Restoring is proved if only variables without a value were defined in between; violated by the code otherwise, since env-get does not copy."
  },
  {
   "property": "C118",
   "status": "partial",
   "theorems": [
    "Verif.Rts.C118_stack_is_a_block_partial",
    "Verif.Rts.C118_set",
    "Verif.Rts.C118_fits_64",
    "Verif.Rts.C118_rejected",
    "Verif.Rts.C118_overflow_violated"
   ],
   "note": "For arguments whose size in bytes fits into a word, which is always the case on 64-bit builds. Violated by the code on 32-bit builds for 2^30 words and more (the size wraps around)."
  },
  {
   "property": "C119",
   "status": "partial",
   "theorems": [
    "Verif.Img.C119_arc_partial",
    "Verif.Img.C119_no_holes"
   ],
   "note": "The end points, the rows min_y and max_y and the decision whether the arc is longer than a half circle are computed in floating point and are parameters. Exactly half a circle is excluded: there the code drops the pixels on the line through the ends when it takes the arc for not longer than a half circle. The lines of sectors and segments, and arcs that are thicker, are not modelled."
  },
  {
   "property": "C120",
   "status": "partial",
   "theorems": [
    "Verif.Bufs.C120_access",
    "Verif.Bufs.C120_free",
    "Verif.Bufs.C120_write",
    "Verif.Bufs.C120_create",
    "Verif.Bufs.C120_unflatten",
    "Verif.Bufs.C120_freed_violated"
   ],
   "note": "Violated by eq and by unflatten, which do not check that the array was freed and read through a null pointer (C120_freed_violated); proved for all the functions that go through lbm_is_array_r or lbm_is_array_rw. Constant arrays are not in the model."
  },
  {
   "property": "C121",
   "status": "partial",
   "theorems": [
    "Verif.Kont.C121_others",
    "Verif.Kont.C121_round_trip_partial",
    "Verif.Kont.C121_own",
    "Verif.Kont.C121_small_stack_violated"
   ],
   "note": "The code violates it for a process with a stack that is smaller than the continuation: there is no check, and the copy overwrites the memory behind the stack (witness). Proved if the stack is large enough, in particular for the own continuations of a process."
  },
  {
   "property": "C122",
   "status": "partial",
   "theorems": [
    "Verif.Eval.Builtin.C122_local",
    "Verif.Eval.Builtin.C122_blind",
    "Verif.Eval.Builtin.C122_collections",
    "Verif.Eval.Builtin.C122_untouched",
    "Verif.Eval.progPrims_local",
    "Verif.Eval.progPrims_blind"
   ],
   "note": "Proved for these functions on values made of cells, symbols and numbers, and for every other function that can be written as a program of the same kind. Not modelled: the parts for arrays and for constant cells (an allocation that fails inside of a function is in C125)."
  },
  {
   "property": "C123",
   "status": "partial",
   "theorems": [
    "Verif.Eval.Builtin.C123_assoc",
    "Verif.Eval.Builtin.C123_acons",
    "Verif.Eval.Builtin.C123_set_assoc",
    "Verif.Eval.Builtin.C123_get_set_partial",
    "Verif.Eval.Builtin.C123_set_list_key_violated"
   ],
   "note": "The code violates the last law for keys that are lists: setassoc compares keys by identity, assoc by structure (witness). Proved for keys that are not lists. Keys that are numbers in cells of their own (i64, double, ...) or byte arrays are not in the model; for them setassoc compares addresses too."
  },
  {
   "property": "C124",
   "status": "partial",
   "theorems": [
    "Verif.Img.C124_make",
    "Verif.Img.C124_get_set",
    "Verif.Img.C124_settable",
    "Verif.Img.C124_table",
    "Verif.Img.C124_draw_partial",
    "Verif.Img.C124_shown",
    "Verif.Img.C124_width_violated",
    "Verif.Img.C124_table_junk_violated"
   ],
   "note": "The code violates two parts: the width can be set to 0 and drawing then divides by zero, and entries of the table behind the width are not initialised when the colour is made (witnesses). Numbers are integers; positions up to 6000000."
  },
  {
   "property": "C125",
   "status": "proved",
   "theorems": [
    "Verif.Eval.Builtin.C125_all_or_nothing",
    "Verif.Eval.Builtin.C125_retry",
    "Verif.Eval.Builtin.C125_called",
    "Verif.Gc.C125_program"
   ],
   "note": "The functions on lists of C122. Condition of C125_retry and C125_called: the function does not give the symbol out_of_memory as its own result. C125_program is for whole programs, on the evaluator with the collector of C73; there the second attempt finds enough memory."
  },
  {
   "property": "C126",
   "status": "partial",
   "theorems": [
    "Verif.Bufs.C126_access",
    "Verif.Bufs.C126_bytes",
    "Verif.Bufs.C126_release",
    "Verif.Bufs.C126_lift",
    "Verif.Bufs.C126_twice_violated"
   ],
   "note": "Holds for memory of the host and for blocks that are made into an array once. Violated for a block of the system's memory that is shared twice: the code does not notice, and the second array refers to freed memory (C126_twice_violated). Constant arrays (lbm_share_const_array) are in C128."
  },
  {
   "property": "C127",
   "status": "partial",
   "theorems": [
    "Verif.Custom.C127_create",
    "Verif.Custom.C127_collect",
    "Verif.Custom.C127_reading",
    "Verif.Custom.C127_open",
    "Verif.Custom.C127_unterminated_violated",
    "Verif.Custom.C127_moved_violated"
   ],
   "note": "Holds for strings with a terminator whose bytes are in a block of their own. Violated for byte arrays without a terminator, which read accepts (C127_unterminated_violated), and for arrays in a defragmentable memory, whose bytes may be moved during the reading (C127_moved_violated). Channels made by the host are not in the model."
  },
  {
   "property": "C128",
   "status": "proved",
   "theorems": [
    "Verif.Flash.C128_share",
    "Verif.Flash.C128_others",
    "Verif.Flash.C128_room",
    "Verif.Flash.C128_all"
   ],
   "note": "The bytes behind the pointer belong to the host and are not in the model."
  },
  {
   "property": "C129",
   "status": "partial",
   "theorems": [
    "Verif.Val.C129_type_of_partial",
    "Verif.Val.C129_same",
    "Verif.Val.C129_number",
    "Verif.Val.C129_is_nan_partial",
    "Verif.Val.C129_is_inf_partial",
    "Verif.Val.C129_channel_violated",
    "Verif.Val.C129_constant_violated"
   ],
   "note": "Disagreements: type-of has no case for channels, although the symbol type-channel exists; is-nan and is-inf answer no for every double in the constant heap."
  },
  {
   "property": "C130",
   "status": "partial",
   "theorems": [
    "Verif.Tok.C130_float_literal",
    "Verif.Tok.C130_char",
    "Verif.Tok.C130_named_char",
    "Verif.Tok.C130_unknown_char",
    "Verif.Tok.C130_exponent_violated"
   ],
   "note": "All literals are read as stated. Disagreement: texts with signs between the digits of the exponent are accepted as a number and cut by strtod. The conversion by strtod is outside the model. Longer texts: C53."
  },
  {
   "property": "C131",
   "status": "proved",
   "theorems": [
    "Verif.Heap.C131_set"
   ],
   "note": "Targets that are pairs by type are pairs by content."
  },
  {
   "property": "C132",
   "status": "partial",
   "theorems": [
    "Verif.Mem.C132_maximum_used",
    "Verif.Mem.C132_update",
    "Verif.Mem.C132_between_violated"
   ],
   "note": "The last sentence fails: memory that is allocated and freed between two garbage collections is not in the report."
  },
  {
   "property": "C133",
   "status": "proved",
   "theorems": [
    "Verif.Flat.C133_inside",
    "Verif.Flat.C133_all",
    "Verif.Flat.C133_value",
    "Verif.Flat.C133_same",
    "Verif.Flat.C133_sym",
    "Verif.Flat.C133_start",
    "Verif.Flat.C133_finish"
   ],
   "note": "For lengths below the word size: buf_pos + num_bytes does not wrap. Every size that can be allocated is so."
  },
  {
   "property": "C134",
   "status": "partial",
   "theorems": [
    "Verif.Jpg.C134_restart",
    "Verif.Jpg.C134_restart_bytes",
    "Verif.Jpg.C134_interval",
    "Verif.Jpg.C134_restart_violated"
   ],
   "note": "The reserved markers F0 to F7 are taken for restart markers as well, as the theorem says."
  },
  {
   "property": "C135",
   "status": "partial",
   "theorems": [
    "Verif.Img.C135_render",
    "Verif.Img.C135_render_no_colors",
    "Verif.Img.C135_render_refused",
    "Verif.Img.C135_place_violated"
   ],
   "note": "The place is cut to 16 bits: -1 is given to the driver as 65535 (witness)."
  },
  {
   "property": "C136",
   "status": "partial",
   "theorems": [
    "Verif.Flat.C136_array",
    "Verif.Flat.C136_nothing_lost_partial",
    "Verif.Flat.C136_enough",
    "Verif.Flat.C136_leak_violated",
    "Verif.Flat.C136_apply",
    "Verif.Flat.C136_collected"
   ],
   "note": "The code violates it for values whose size is computed but that cannot be written (an empty byte array anywhere, or a channel or other value without a flat form inside an array of values): header and buffer stay allocated for ever, with nil as the error (C136_leak_violated). Proved for all other values."
  },
  {
   "property": "C137",
   "status": "proved",
   "theorems": [
    "Verif.Flat.C137_range",
    "Verif.Flat.C137_image",
    "Verif.Flat.C137_enough",
    "Verif.Flat.C137_given_back"
   ],
   "note": "For buckets with a flat form; what a failing call leaves behind is C136."
  },
  {
   "property": "C138",
   "status": "partial",
   "theorems": [
    "Verif.Quota.C138_turn",
    "Verif.Quota.C138_never_stuck",
    "Verif.Quota.C138_round",
    "Verif.Quota.C138_set",
    "Verif.Quota.C138_zero_violated"
   ],
   "note": "For quotas of at least 1. The code violates the last sentence: (set-eval-quota 0) is accepted, and after it no program makes a step any more (C138_zero_violated). Atomic blocks are C34, requests of the host C92."
  },
  {
   "property": "C139",
   "status": "partial",
   "theorems": [
    "Verif.Heap.C139_collection",
    "Verif.Heap.C139_history",
    "Verif.Heap.C139_marked_violated"
   ],
   "note": "The code violates the last part: the values an allocation protects are marked before the counter of marked cells is reset, so they are not counted (C139_marked_violated). The counters are natural numbers in the model, so their wrap at 2^32 is left out."
  },
  {
   "property": "C140",
   "status": "partial",
   "theorems": [
    "Verif.Img.Buffer.C140_made",
    "Verif.Img.Buffer.C140_refused",
    "Verif.Img.Buffer.C140_dims",
    "Verif.Img.Buffer.C140_others",
    "Verif.Img.Buffer.C140_small_violated"
   ],
   "note": "The code violates the last part: img-buffer? computes the size rounded down and takes any format, so it accepts arrays that are too small (C140_small_violated). img-dims without arguments is left out: it reads an argument that does not exist."
  },
  {
   "property": "C141",
   "status": "partial",
   "theorems": [
    "Verif.Sym.C141_sizes_partial",
    "Verif.Sym.C141_table",
    "Verif.Sym.C141_const_violated",
    "Verif.Sym.C141_lost_violated"
   ],
   "note": "The code violates the exact claim: an entry with a constant name takes 12 bytes and counts 3 (C141_const_violated), and a name written to flash counts although its entry could not be written (C141_lost_violated). C141_sizes_partial gives the exact difference. The counters are unbounded numbers in the model."
  },
  {
   "property": "C142",
   "status": "proved",
   "theorems": [
    "Verif.MathExt.C142_functions",
    "Verif.MathExt.C142_convert"
   ],
   "note": "The C library and the floating point unit are parameters; of the heap only the number of free cells is kept."
  },
  {
   "property": "C143",
   "status": "proved",
   "theorems": [
    "Verif.Env.C143_clear"
   ],
   "note": "Under the conditions of C07 and C08 on the heap (a large enough stack of the collector, no unreachable pair with a type symbol in its cdr). The evaluator is paused."
  },
  {
   "property": "C144",
   "status": "partial",
   "theorems": [
    "Verif.Sched.Blocking.C144_not_lost_partial",
    "Verif.Sched.Blocking.C144_once_partial",
    "Verif.Sched.Blocking.C144_no_victim_partial",
    "Verif.Sched.Blocking.C144_released_partial",
    "Verif.Sched.Blocking.C144_error_violated",
    "Verif.Sched.Blocking.C144_retry_violated"
   ],
   "note": "Proved for extensions that do not return an error after they asked to be blocked. False otherwise: after another error the flag stays set and the mutex locked, and the next process that calls an extension is blocked instead; after a memory error the evaluator waits for ever for its own mutex. One process is followed; a reset of the evaluator is left out."
  }
 ]
}