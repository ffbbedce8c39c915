{"id": "C01", "title": "Allocated word blocks never overlap", "statement": "Every non-NULL pointer returned by lbm_memory_allocate / lbm_malloc / lbm_malloc_reserve designates a run of the requested number of words that lies inside the arena and is disjoint from every block handed out earlier and not yet freed, no matter which allocations, frees of live blocks and shrinks happened before.", "quantifier": "all arena sizes, all finite histories of allocate/free/shrink in which frees and shrinks name live blocks, all request sizes", "why_tests_cant": "The scan is circular, starts at a roving offset left behind by earlier operations, and the bitmap does not distinguish free words from block interiors; overlap only shows up for particular offset/bitmap combinations among an unbounded set of histories.", "anchors": ["src/lbm_memory.c:lbm_memory_allocate_internal", "src/lbm_memory.c:lbm_memory_free", "src/lbm_memory.c:lbm_memory_shrink"]}
{"id": "C02", "title": "Allocation succeeds whenever the memory admits it", "statement": "In any state reached by valid use, a request for n >= 1 words that respects the reserve level returns a block if and only if there are n consecutive free words; the circular scan never misses a run because of where it starts.", "quantifier": "all reachable allocator states and all request sizes", "why_tests_cant": "Depends on the scan offset and on every layout of free runs, including a run that straddles the offset.", "anchors": ["src/lbm_memory.c:lbm_memory_allocate_internal", "src/lbm_memory.c:lbm_memory_free"]}
{"id": "C03", "title": "Free releases exactly one block and the free counter is exact", "statement": "lbm_memory_free of a live block returns 1, makes exactly the words of that block free and leaves every other live block allocated; lbm_memory_num_free always equals the arena size minus the total size of the live blocks; freeing anything that is not the start of a live block returns 0 and changes neither the set of live blocks nor num_free.", "quantifier": "all reachable states, all pointers", "why_tests_cant": "Accounting errors accumulate only over long histories and particular layouts (adjacent one-word blocks, blocks ending at the arena end).", "anchors": ["src/lbm_memory.c:lbm_memory_free", "src/lbm_memory.c:lbm_memory_num_free"]}
{"id": "C04", "title": "Shrink keeps the prefix and releases the tail", "statement": "lbm_memory_shrink(p,n) on a live block of m words with 1 <= n < m returns 1, afterwards p designates a live block of n words, the m-n tail words are free, and no other block changes; when it returns 0 nothing changes.", "quantifier": "all reachable states, blocks and target sizes", "why_tests_cant": "Boundary behaviour (n = m, n = 1, block at arena end) interacts with arbitrary neighbours.", "anchors": ["src/lbm_memory.c:lbm_memory_shrink"]}
{"id": "C05", "title": "A rejected free is harmless", "statement": "After lbm_memory_free(p) returns 0, subsequent allocations still return blocks disjoint from all live blocks.", "quantifier": "all reachable states, all pointers p into the arena, all later requests", "why_tests_cant": "Needs the combination of a bad pointer, a particular position inside a live block and a later allocation of the right size.", "anchors": ["src/lbm_memory.c:lbm_memory_free"]}
{"id": "C06", "title": "longest_free reports what can be allocated", "statement": "lbm_memory_longest_free returns the length of the longest run of consecutive free words, reduced so that allocating that many words would leave the reserve intact.", "quantifier": "all reachable states and reserve levels", "why_tests_cant": "Quantifies over all layouts; the unsigned subtraction is only wrong in corner states.", "anchors": ["src/lbm_memory.c:lbm_memory_longest_free"]}
{"id": "C07", "title": "Garbage collection preserves all reachable data", "statement": "A garbage collection started with any set of root values leaves every cell reachable from the roots (through car and cdr of cons cells and through elements of lisp arrays) with exactly the same car and cdr, and leaves the byte/word memory of reachable boxed values and arrays allocated.", "quantifier": "all heap shapes including shared and cyclic cons structure, all root sets, all mark-stack sizes for which the collector does not report a stack overflow", "why_tests_cant": "Heap graphs are unbounded; bugs need specific sharing, cycles and constant-heap pointers.", "anchors": ["src/heap.c:lbm_gc_mark_phase", "src/heap.c:lbm_gc_sweep_phase", "src/eval_cps.c:gc"]}
{"id": "C08", "title": "Garbage collection reclaims all unreachable cells", "statement": "After a garbage collection the free list contains exactly the cells that are not reachable from the roots, each exactly once, no cell carries a mark, and the reported number of free cells equals the heap size minus the number of reachable cells; memory attached to unreachable arrays and boxed numbers is released exactly once.", "quantifier": "all heap shapes and root sets", "why_tests_cant": "A leak or a double insertion is invisible until an unbounded number of later allocations.", "anchors": ["src/heap.c:lbm_gc_sweep_phase", "src/heap.c:lbm_gc_mark_phase"]}
{"id": "C09", "title": "Garbage collection terminates", "statement": "The mark phase terminates for every heap and root value, including cyclic structures, either completing or reporting mark-stack overflow.", "quantifier": "all heaps, all roots", "why_tests_cant": "Non-termination cannot be observed by a finite test and depends on cyclic structure through arrays.", "anchors": ["src/heap.c:lbm_gc_mark_phase"]}
{"id": "C10", "title": "Cell allocation is fresh and fails only when the heap is full", "statement": "lbm_cons / lbm_heap_allocate_cell returns a cell that is not part of any live structure and was on the free list, changes no other cell, decreases the number of free cells by one, and returns the memory error value iff no cell is free; lbm_heap_allocate_list(n) returns an n-element proper list or fails without consuming cells.", "quantifier": "all heap states reachable by init, allocation and GC; all n", "why_tests_cant": "Freshness is relative to every live structure.", "anchors": ["src/heap.c:lbm_heap_allocate_cell", "src/heap.c:lbm_cons", "src/heap.c:lbm_heap_allocate_list"]}
{"id": "C11", "title": "Unboxed values survive encoding", "statement": "Decoding an encoded symbol id, byte, integer or unsigned integer yields the original number for every number that fits the payload (28/56-bit payloads on 32/64-bit builds, sign preserved), and the low payload bits for all others.", "quantifier": "all machine integers, both word sizes", "why_tests_cant": "2^32 / 2^64 inputs times each type; wrap-around at the payload boundary.", "anchors": ["include/heap.h:lbm_enc_i", "include/heap.h:lbm_dec_i", "include/heap.h:lbm_enc_u", "include/heap.h:lbm_enc_sym", "include/heap.h:lbm_enc_char"]}
{"id": "C12", "title": "Type tags are unambiguous and pointers round-trip", "statement": "The type reported for an encoded value is the type it was encoded with, values of different types are never equal as words, a cons pointer decodes to the cell index it was created from, and setting/clearing the GC bit does not disturb the payload or the type.", "quantifier": "all payloads of all types, all cell indices below the address limit, both word sizes", "why_tests_cant": "Bit-level aliasing must be excluded for every payload.", "anchors": ["include/heap.h:lbm_type_of", "include/heap.h:lbm_enc_cons_ptr", "include/heap.h:lbm_dec_ptr", "include/lbm_defines.h"]}
{"id": "C13", "title": "Flatten/unflatten round trip", "statement": "For every serialisable value, unflattening the bytes produced by flattening it yields a structurally equal value and consumes exactly the produced bytes.", "quantifier": "all finite values built from symbols, numbers of every type, byte arrays, lisp arrays and lists", "why_tests_cant": "Values are unboundedly deep and wide.", "anchors": ["src/lbm_flat_value.c:flatten_value_c", "src/lbm_flat_value.c:lbm_unflatten_value"]}
{"id": "C14", "title": "Flat size is exact", "statement": "The size computed for a value before flattening is exactly the number of bytes flattening writes, so flattening never overruns its buffer.", "quantifier": "all serialisable values", "why_tests_cant": "Two independent recursive traversals must agree on every shape.", "anchors": ["src/lbm_flat_value.c:flatten_value_size", "src/lbm_flat_value.c:flatten_value_c"]}
{"id": "C15", "title": "Unflatten stays inside its buffer", "statement": "Unflattening an arbitrary byte buffer never reads outside the buffer, and reports failure instead.", "quantifier": "all byte strings", "why_tests_cant": "Adversarial inputs are unbounded; out-of-bounds reads need not crash a test.", "anchors": ["src/lbm_flat_value.c:lbm_unflatten_value_internal", "src/lbm_flat_value.c:extract_word"]}
{"id": "C16", "title": "A buffered character channel is a bounded FIFO", "statement": "For any interleaving of writes, reads, peeks and drops on a buffered channel, the characters read are exactly the characters successfully written, in order, a write fails exactly when 256 characters are pending (or the reader closed), peek(n) returns the n-th pending character, and row/column equal those of the consumed text.", "quantifier": "all finite operation sequences", "why_tests_cant": "Ring-buffer wrap-around at every head/tail offset and fill level.", "anchors": ["src/lbm_channel.c:buffered_write", "src/lbm_channel.c:buffered_read", "src/lbm_channel.c:buffered_peek", "src/lbm_channel.c:buffered_drop"]}
{"id": "C17", "title": "Integer literals denote their value", "statement": "Reading a decimal or hexadecimal integer literal with an optional sign and type suffix yields the mathematical value of the literal reduced modulo 2^64 with the suffix's type, and consumes exactly the literal.", "quantifier": "all digit strings of any length, all suffixes, any following delimiter", "why_tests_cant": "Literals are unbounded strings.", "anchors": ["src/tokpar.c:tok_integer"]}
{"id": "C18", "title": "String literals denote the escaped text", "statement": "Reading a string literal yields exactly the characters between the quotes with the documented escapes replaced, for every text up to the documented maximum length, and an unterminated literal is never accepted.", "quantifier": "all character sequences", "why_tests_cant": "Unbounded inputs; escape at the end of input is a corner case.", "anchors": ["src/tokpar.c:tok_string"]}
{"id": "C19", "title": "Tokenising is independent of how the input is chunked", "statement": "If the tokenizer produces a token from a prefix of the stream while more input may follow, it produces the same token when all the input is available at once; otherwise it asks for more input.", "quantifier": "all inputs and all ways of splitting them", "why_tests_cant": "Exponentially many splits of unboundedly long inputs.", "anchors": ["src/tokpar.c:tok_syntax", "src/tokpar.c:tok_symbol", "src/tokpar.c:tok_integer", "src/lbm_channel.c"]}
{"id": "C20", "title": "Environments behave as maps", "statement": "After defining or setting a key, looking that key up yields the stored value, all other keys are unaffected, and lookup returns the innermost binding; environment copies are unaffected by later extensions of the original.", "quantifier": "all environments, keys and values, all operation sequences", "why_tests_cant": "Unbounded binding lists and interleavings of update and lookup.", "anchors": ["src/env.c:lbm_env_set", "src/env.c:lbm_env_lookup_b", "src/env.c:lbm_global_env_lookup"]}
{"id": "C21", "title": "A failed assignment does not disturb other variables", "statement": "setq/setvar on a variable that is bound neither locally nor globally reports variable_not_bound and leaves every other global variable bound to its value.", "quantifier": "all global environments and variables", "why_tests_cant": "Only variables that share a hash bucket with the failing one can show the effect.", "anchors": ["src/eval_cps.c:perform_setvar", "src/env.c:lbm_env_modify_binding"]}
{"id": "C22", "title": "Undefine removes exactly one key", "statement": "Undefining a key makes it unbound (one binding per key in a global environment built by define) and leaves the other keys bound; undefining an unbound key changes nothing.", "quantifier": "all global environments reachable by define/undefine", "why_tests_cant": "Position-dependent unlinking in lists of any length.", "anchors": ["src/env.c:lbm_env_drop_binding", "src/fundamental.c:fundamental_undefine"]}
{"id": "C23", "title": "Defragmentable allocations are disjoint and survive compaction", "statement": "Blocks returned by dm-alloc are disjoint regions inside the defragmentable memory; compaction, which may run inside any allocation, preserves the contents and the identity of every live block.", "quantifier": "all sequences of dm-alloc and free (by GC), all sizes", "why_tests_cant": "Compaction moves overlapping regions; the effect depends on the whole layout.", "anchors": ["src/lbm_defrag_mem.c:lbm_defrag_mem_alloc", "src/lbm_defrag_mem.c:lbm_defrag_mem_defrag"]}
{"id": "C24", "title": "Compaction makes all free space usable", "statement": "dm-alloc succeeds whenever the total amount of free defragmentable memory is at least the size needed (data words plus header).", "quantifier": "all layouts and sizes", "why_tests_cant": "Quantifies over all fragmentations.", "anchors": ["src/lbm_defrag_mem.c:lbm_defrag_mem_alloc", "src/lbm_defrag_mem.c:lbm_defrag_mem_alloc_internal"]}
{"id": "C25", "title": "Symbol interning is injective and stable", "statement": "Two names get the same symbol id iff they are the same name (up to the documented aliases of built-in symbols); once interned, a name keeps its id and an id keeps its name under any later interning.", "quantifier": "all sequences of symbol additions", "why_tests_cant": "Unbounded histories of additions interleaved with look-ups.", "anchors": ["src/symrepr.c:lbm_add_symbol_base", "src/symrepr.c:lbm_get_symbol_by_name", "src/symrepr.c:lbm_get_name_by_symbol"]}
{"id": "C26", "title": "Integer arithmetic is exact modulo the promoted width", "statement": "(+ ...), (- ...) and (* ...) over integer arguments return the mathematical result reduced to the width of the promoted type, independently of argument order for + and *; the promoted type is the larger of the argument types in the documented order.", "quantifier": "all argument lists, all integer types, all values", "why_tests_cant": "All pairs of types times 2^64 values; order independence of n-ary operations.", "anchors": ["src/fundamental.c:add2", "src/fundamental.c:mul2", "src/fundamental.c:sub2", "src/fundamental.c:PROMOTE"]}
{"id": "C27", "title": "Division and modulo are exact", "statement": "(/ a b) and (mod a b) with non-zero b return the truncated quotient and remainder of the promoted operands; b = 0 yields a division-by-zero error.", "quantifier": "all operand types and values", "why_tests_cant": "64-bit operands; extreme values.", "anchors": ["src/fundamental.c:div2", "src/fundamental.c:mod2"]}
{"id": "C28", "title": "Numeric comparison agrees with the order of the numbers", "statement": "For integers, (< a b1 ... bn), (> ...), (<= ...), (>= ...) and (= ...) hold exactly when, mathematically, a is less than (greater than, ...) every one of b1 ... bn, whatever the types; != is the negation of =; an argument that is not a number is a type error.", "quantifier": "all argument lists, all integer types and values", "why_tests_cant": "n-ary forms with arbitrarily many arguments of mixed types.", "anchors": ["src/fundamental.c:fundamental_lt", "src/fundamental.c:fundamental_geq", "src/fundamental.c:fundamental_numeq", "src/fundamental.c:compare_num"]}
{"id": "C29", "title": "Structural equality is an equivalence", "statement": "eq is reflexive, symmetric and transitive on finite values, and equal values are indistinguishable by car, cdr and element access.", "quantifier": "all finite values", "why_tests_cant": "Unbounded structures.", "anchors": ["src/fundamental.c:struct_eq"]}
{"id": "C30", "title": "List operations compute the documented lists", "statement": "append, reverse, take, drop, ix, range and rotate return exactly the list described in the reference manual and do not modify their argument lists; negative indices count from the end; out-of-range indices give nil.", "quantifier": "all lists and all integer arguments", "why_tests_cant": "All lengths and indices including negative and out-of-range ones.", "anchors": ["src/heap.c:lbm_list_append", "src/heap.c:lbm_index_list", "src/eval_cps.c:apply_rotate", "src/fundamental.c:fundamental_range"]}
{"id": "C31", "title": "sort and merge return an ordered permutation", "statement": "(sort cmp l) returns a permutation of l that is ordered by cmp whenever cmp is a total preorder or a strict weak order, leaves l unchanged, and (merge cmp a b) of ordered lists is the ordered merge of both.", "quantifier": "all lists, all comparison functions with those laws", "why_tests_cant": "Bottom-up merging has length-dependent layers; all lengths and comparators.", "anchors": ["src/eval_cps.c:apply_sort", "src/eval_cps.c:cont_merge_rest", "src/eval_cps.c:cont_merge_layer", "src/eval_cps.c:apply_merge"]}
{"id": "C32", "title": "A context is always in exactly one place", "statement": "At every scheduling point each live process is exactly one of: running, in the ready queue once, or in the blocked queue once; finished processes are in none; the doubly linked queues stay well formed.", "quantifier": "all schedules of spawn, yield, sleep, send, receive, block, unblock, kill, timeouts and finishing", "why_tests_cant": "All interleavings of operations from several threads and processes.", "anchors": ["src/eval_cps.c:enqueue_ctx_nm", "src/eval_cps.c:dequeue_ctx_nm", "src/eval_cps.c:drop_ctx_nm", "src/eval_cps.c:wake_up_ctxs_nm", "src/eval_cps.c:lbm_run_eval"]}
{"id": "C33", "title": "The scheduler is fair", "statement": "Provided no process is inside an atomic block, a ready process is selected to run after at most as many scheduling rounds as there are processes ahead of it in the ready queue, whatever the others do.", "quantifier": "all queue contents, all behaviours of the other processes", "why_tests_cant": "A liveness claim over infinite schedules.", "anchors": ["src/eval_cps.c:lbm_run_eval", "src/eval_cps.c:dequeue_ctx_nm"]}
{"id": "C34", "title": "A process that fails inside an atomic block does not stop the others", "statement": "If a process terminates or is terminated by an error while in an atomic block, the remaining ready processes continue to be scheduled.", "quantifier": "all programs and schedules", "why_tests_cant": "The freeze is global and permanent; it needs an error at a particular moment.", "anchors": ["src/eval_cps.c:error_ctx_base", "src/eval_cps.c:finish_ctx", "src/eval_cps.c:lbm_run_eval"]}
{"id": "C35", "title": "Mailboxes deliver messages in order and keep the newest", "statement": "Messages sent to a process are stored in sending order; when the mailbox is full the oldest message is discarded; receive takes the oldest message that matches some pattern, removes exactly that message and keeps the order of the rest; a process waiting in receive is made ready by each message.", "quantifier": "all message sequences, mailbox sizes and pattern lists", "why_tests_cant": "All interleavings of senders and receivers.", "anchors": ["src/eval_cps.c:mailbox_add_mail", "src/eval_cps.c:mailbox_remove_mail", "src/eval_cps.c:find_match", "src/eval_cps.c:lbm_find_receiver_and_send"]}
{"id": "C36", "title": "Changing the mailbox size is safe", "statement": "set-mailbox-size never writes outside the new mailbox and keeps the pending messages that fit.", "quantifier": "all mailbox contents and new sizes", "why_tests_cant": "Needs a non-empty mailbox larger than the new size.", "anchors": ["src/eval_cps.c:lbm_mailbox_change_size", "src/fundamental.c:fundamental_set_mailbox_size"]}
{"id": "C37", "title": "Sleeping processes wake when their time has passed", "statement": "At each wake-up check exactly the sleeping or timed-out processes whose delay has elapsed (with a 32-bit wrapping microsecond clock) become ready, in queue order, and all others stay blocked.", "quantifier": "all blocked queues, clocks, delays including clock wrap-around", "why_tests_cant": "Clock wrap-around happens once per 71 minutes.", "anchors": ["src/eval_cps.c:wake_up_ctxs_nm"]}
{"id": "C38", "title": "The event queue is a bounded FIFO", "statement": "Events accepted by the runtime are delivered in the order accepted, none is lost or duplicated, an event is rejected exactly when the queue holds its maximum number of events.", "quantifier": "all interleavings of producers and the consumer", "why_tests_cant": "All wrap-around positions and interleavings.", "anchors": ["src/eval_cps.c:event_internal", "src/eval_cps.c:lbm_event_pop"]}
{"id": "C39", "title": "The stack machine implements the language semantics", "statement": "For every expression of the core language (quote, variables, define, setq, progn, var, if, cond, and, or, let, lambda, application, match, trap), if the language semantics assigns it a value then the evaluator, started on it with any continuation, reaches that continuation with that value and the continuation stack unchanged.", "quantifier": "all expressions, environments and continuations", "why_tests_cant": "Programs are unboundedly nested.", "anchors": ["src/eval_cps.c:evaluation_step", "src/eval_cps.c:cont_progn_rest", "src/eval_cps.c:cont_if", "src/eval_cps.c:cont_closure_application_args"]}
{"id": "C40", "title": "Tail calls run in constant stack", "statement": "When the evaluator starts evaluating an expression in tail position (last expression of progn/let/closure body, branches of if and cond, last case of and/or excluded) the continuation stack is exactly as high as when it started evaluating the enclosing expression.", "quantifier": "all programs and iteration counts", "why_tests_cant": "Stack growth shows only after a number of iterations depending on stack size.", "anchors": ["src/eval_cps.c:cont_progn_rest", "src/eval_cps.c:cont_if", "src/eval_cps.c:cont_bind_to_key_rest", "src/eval_cps.c:cont_closure_application_args"]}
{"id": "C41", "title": "trap catches every error of its expression", "statement": "(trap e) evaluates to (exit-ok v) when e evaluates to v and to (exit-error err) when evaluating e raises a non-fatal error err, with the continuation stack and flags restored to what they were before the trap.", "quantifier": "all expressions, error kinds and nesting depths", "why_tests_cant": "Errors can arise at any depth of the continuation stack.", "anchors": ["src/eval_cps.c:eval_trap", "src/eval_cps.c:cont_exception_handler", "src/eval_cps.c:error_ctx_base"]}
{"id": "C42", "title": "match evaluates guards and bodies in the right scope", "statement": "In (match e (p g b) ...), every guard and body is evaluated in the environment of the match expression extended with the bindings of its own pattern only.", "quantifier": "all match expressions, patterns, guards", "why_tests_cant": "Requires failing guards combined with scrutinee expressions that change the current environment.", "anchors": ["src/eval_cps.c:cont_match", "src/eval_cps.c:cont_match_guard"]}
{"id": "C43", "title": "receive binds only the variables of the selected pattern", "statement": "The body selected by recv is evaluated in the environment of the recv expression extended with the bindings of the selected pattern only.", "quantifier": "all messages and pattern lists", "why_tests_cant": "Requires an earlier pattern that binds before it fails.", "anchors": ["src/eval_cps.c:find_match", "src/eval_cps.c:match"]}
{"id": "C44", "title": "Quasiquotation builds the template", "statement": "Evaluating the code the reader produces for a quasi-quoted template yields the template with every unquoted expression replaced by its value and every spliced expression by its elements.", "quantifier": "all templates, environments", "why_tests_cant": "Templates are unboundedly nested.", "anchors": ["src/eval_cps.c:cont_qq_expand", "src/eval_cps.c:cont_qq_expand_list", "src/eval_cps.c:append"]}
{"id": "C45", "title": "Typed buffer accesses stay in bounds and round-trip", "statement": "bufset-x followed by bufget-x at the same index and byte order returns the stored value reduced to the element width, changes only the addressed bytes, and an index outside the buffer is rejected without touching memory.", "quantifier": "all buffers, indices (including negative ones), values, byte orders", "why_tests_cant": "Index arithmetic wraps at 2^32.", "anchors": ["src/extensions/array_extensions.c:buffer_append_bytes", "src/extensions/array_extensions.c:buffer_get_uint"]}
{"id": "C46", "title": "Bulk buffer operations stay in bounds", "statement": "bufclear, bufcpy and bufset-bit modify exactly the documented bytes/bits of the target buffer and nothing else, whatever the numeric arguments.", "quantifier": "all buffers and numeric arguments", "why_tests_cant": "Clamping logic over 32-bit arithmetic.", "anchors": ["src/extensions/array_extensions.c:array_extensions_bufclear", "src/extensions/array_extensions.c:array_extensions_bufcpy", "src/extensions/array_extensions.c:array_extensions_bufset_bit"]}
{"id": "C47", "title": "The constant heap is written once and never overlaps", "statement": "Cells and raw regions allocated in the constant heap are pairwise disjoint and inside it, and each word is written at most once after being erased.", "quantifier": "all sequences of constant-heap allocations and writes", "why_tests_cant": "Unbounded sequences, alignment dependent.", "anchors": ["src/heap.c:lbm_allocate_const_cell", "src/heap.c:lbm_write_const_raw", "src/heap.c:lbm_allocate_const_raw"]}
{"id": "C48", "title": "Moving a value to flash preserves it", "statement": "move-to-flash / @const replaces a value by a structurally equal value whose cells all live in the constant heap, leaving already constant parts in place.", "quantifier": "all values without channels and custom types", "why_tests_cant": "Unbounded nested values.", "anchors": ["src/eval_cps.c:cont_move_val_to_flash_dispatch", "src/eval_cps.c:cont_move_list_to_flash"]}
{"id": "C49", "title": "Printing and reading are inverse", "statement": "Reading the printed representation of a value built from integers, symbols, strings and lists (proper or dotted) yields a structurally equal value.", "quantifier": "all such finite values", "why_tests_cant": "Unbounded values; interaction of printer and tokenizer.", "anchors": ["src/print.c:lbm_print_internal", "src/tokpar.c", "src/eval_cps.c:cont_read_next_token"]}
{"id": "C50", "title": "Flat values are portable between builds", "statement": "A value flattened on a 64-bit build and unflattened on a 32-bit build (or the other way round) is the same value, except that unboxed integers too wide for the reading build become boxed 64-bit integers with the same number.", "quantifier": "all serialisable values, both builds as writer and as reader", "why_tests_cant": "Needs two platforms and every value.", "anchors": ["src/lbm_flat_value.c:f_i", "src/lbm_flat_value.c:f_u", "src/lbm_flat_value.c:lbm_unflatten_value_internal"]}
{"id": "C51", "title": "A string channel delivers its text", "statement": "For any interleaving of reads, peeks and drops on a channel created from a string, the characters delivered are exactly those of the string in order, peek(n) shows the n-th remaining character, and the channel reports its end exactly when all are consumed; the row and the column it reports are those of the consumed text, both counted from one.", "quantifier": "all texts and operation sequences", "why_tests_cant": "Unbounded texts and histories.", "anchors": ["src/lbm_channel.c:string_read", "src/lbm_channel.c:string_peek", "src/lbm_channel.c:string_drop"]}
{"id": "C52", "title": "Symbols are read whole and case-insensitively", "statement": "Reading a symbol of up to 255 characters followed by a delimiter or the end of the input yields its name in lower case and consumes exactly the name; a longer one is a read error and is never cut short.", "quantifier": "all symbol texts, any following delimiter", "why_tests_cant": "Names are unbounded strings; numbers and symbols share prefixes.", "anchors": ["src/tokpar.c:tok_symbol", "src/tokpar.c:tok_integer", "src/tokpar.c:tok_double", "src/eval_cps.c:cont_read_next_token"]}
{"id": "C53", "title": "No input makes the tokenizer write outside its buffers", "statement": "Whatever characters the program text contains, tokenising it writes only inside the tokenizer's fixed-size buffers.", "quantifier": "all inputs", "why_tests_cant": "Memory errors need particular long inputs.", "anchors": ["src/tokpar.c:tok_double", "src/tokpar.c:tok_symbol", "src/tokpar.c:tok_string"]}
{"id": "C54", "title": "White space and comments only separate tokens", "statement": "White space and comments (from a semicolon to the end of the line, whatever they contain) before a token have no effect on the token or on what is read after it.", "quantifier": "all sequences of white space and comments, all following texts", "why_tests_cant": "Comments contain arbitrary text, including quotes and parentheses.", "anchors": ["src/tokpar.c:tok_clean_whitespace", "src/eval_cps.c:cont_read_next_token"]}
{"id": "C55", "title": "Extensions run the function registered last", "statement": "Registering an extension makes its name run the given function when applied; registering the same name again replaces the function; registering or reading other names does not change it; registration succeeds exactly when the name already is an extension or is unknown and there is room; a symbol id never gets a second meaning, even after extensions are cleared.", "quantifier": "all histories of registration, clearing, interning and reading", "why_tests_cant": "Histories of registrations and look-ups are unbounded and share one table.", "anchors": ["src/extensions.c:lbm_add_extension", "src/extensions.c:lbm_clr_extension", "src/extensions.c:lbm_lookup_extension_id"]}
{"id": "C56", "title": "Applying a symbol runs the function it stands for", "statement": "Applying a built-in name runs the function documented for that name, applying the name of an extension runs that extension, and applying any other symbol is an error; no symbol makes the evaluator call through a pointer outside its function tables.", "quantifier": "all symbols, all states of the tables", "why_tests_cant": "All symbol ids including those made by u2sym.", "anchors": ["src/eval_cps.c:application", "src/fundamental.c:fundamental_table", "src/symrepr.c:special_symbols", "src/fundamental.c:fundamental_uint_to_symbol"]}
{"id": "C57", "title": "Integer conversions keep the number modulo the width", "statement": "to-byte, to-i, to-u, to-i32, to-u32, to-i64 and to-u64 of an integer give the number of the target type that is congruent to it modulo the target's width; converting to a type that can represent the number and back gives the original; an argument that is not a number is an error.", "quantifier": "all integers of all types, all target types", "why_tests_cant": "Two widths per build and 2^64 values.", "anchors": ["src/fundamental.c:fundamental_to_i", "src/fundamental.c:fundamental_to_u", "src/fundamental.c:fundamental_to_byte", "src/heap.c:lbm_dec_as_i64"]}
{"id": "C58", "title": "Bit operations act bit by bit and shifts multiply and divide", "statement": "bitwise-and, -or, -xor and -not combine the two's complement bits of their arguments; shl multiplies by a power of two reduced to the type, shr divides by it rounding down, for every shift amount.", "quantifier": "all integers of all types, all shift amounts", "why_tests_cant": "All pairs of types and amounts, including out of range amounts.", "anchors": ["src/fundamental.c:fundamental_bitwise_and", "src/fundamental.c:fundamental_shl", "src/fundamental.c:fundamental_shr"]}
{"id": "C59", "title": "assoc and cossa find the first equal entry", "statement": "(assoc alist key) returns the value of the first pair of the association list whose key is structurally equal to key, and nil when there is none; an element that is not a pair is an error if no pair before it matches; (cossa alist value) does the same with keys and values exchanged.", "quantifier": "all association lists, keys of any finite structure", "why_tests_cant": "Unbounded lists and keys.", "anchors": ["src/fundamental.c:assoc_lookup", "src/fundamental.c:cossa_lookup", "src/fundamental.c:fundamental_assoc"]}
{"id": "C60", "title": "recv-to waits no longer than its timeout", "statement": "A process in recv-to is resumed, with the symbol timeout, when the given time has passed without a matching message, however many messages that match no pattern arrive in the meantime; it never blocks again after the timeout.", "quantifier": "all mailboxes, patterns, timeouts and arrivals of other messages", "why_tests_cant": "Depends on arrivals during the wait.", "anchors": ["src/eval_cps.c:cont_recv_to", "src/eval_cps.c:cont_recv_to_retry", "src/eval_cps.c:receive_base"]}
{"id": "C61", "title": "Unblocking wakes exactly the blocked context", "statement": "Unblocking a context that an extension has blocked makes that context ready, exactly once, behind the contexts already ready, and reports success; unblocking any other context or an id that is not a context changes nothing and reports failure.", "quantifier": "all states of the scheduler, all ids", "why_tests_cant": "Depends on where the context is at the time of the call.", "anchors": ["src/eval_cps.c:lbm_unblock_ctx_r", "src/eval_cps.c:lbm_unblock_ctx_unboxed", "src/eval_cps.c:handle_event_unblock_ctx"]}
{"id": "C62", "title": "loop evaluates its condition and body in the scope of its bindings", "statement": "In (loop ((x e) ...) cond body) every evaluation of cond and body happens in the environment of the loop extended with the bindings of the loop, whatever the body did before.", "quantifier": "all loops, all numbers of iterations", "why_tests_cant": "Depends on what earlier iterations evaluated.", "anchors": ["src/eval_cps.c:eval_loop", "src/eval_cps.c:cont_loop", "src/eval_cps.c:cont_loop_condition"]}
{"id": "C63", "title": "var binds in the progn it is written in", "statement": "(var x e) as an expression of a progn evaluates e in the scope where it is written and binds x for the expressions that follow it in this progn, and nowhere else.", "quantifier": "all programs", "why_tests_cant": "Depends on the context of the call.", "anchors": ["src/eval_cps.c:eval_var", "src/eval_cps.c:cont_progn_var"]}
{"id": "C64", "title": "A continuation resumes the evaluation it captured", "statement": "Applying a continuation made by call-cc to an expression gives the value of that expression to the evaluation that was pending when call-cc was evaluated, however the stack looks at the time of the application.", "quantifier": "all stacks at the capture and at the application", "why_tests_cant": "Captures and applications can be combined in unboundedly many ways.", "anchors": ["src/eval_cps.c:eval_callcc", "src/eval_cps.c:cont_application_start"]}
{"id": "C65", "title": "String functions stay inside the strings", "statement": "Whatever the arguments of the string functions are (number, types, contents), the call accesses no memory outside of its arguments and its result, overflows no signed number and ends.", "quantifier": "all argument lists, all contents of arrays, all outcomes of allocation", "why_tests_cant": "Arrays of every content and length, counts up to 2^32.", "anchors": ["src/extensions/string_extensions.c:ext_str_len", "src/extensions/string_extensions.c:ext_str_part", "src/extensions/string_extensions.c:ext_str_join", "src/extensions/string_extensions.c:ext_str_split", "src/extensions/string_extensions.c:ext_str_replace", "src/extensions/string_extensions.c:ext_str_cmp", "src/extensions/string_extensions.c:ext_str_find", "src/extensions/string_extensions.c:ext_str_replicate", "src/extensions/string_extensions.c:to_str"]}
{"id": "C66", "title": "Length, parts, joining, letter case, replication", "statement": "str-len is the number of characters before the first zero; str-part is the rest of the text from an index, or so many characters of it, and an error at or behind the end; str-join is the texts in order with the delimiter between them; str-to-upper and str-to-lower change letters only; str-replicate is so many equal characters. Each result is in an array of its own that is as large as the text and its terminator, or the call returns the memory error.", "quantifier": "all byte arrays below 2^27 bytes, all indexes and counts, all outcomes of allocation", "why_tests_cant": "Unboundedly many texts.", "anchors": ["src/extensions/string_extensions.c:ext_str_len", "src/extensions/string_extensions.c:ext_str_part", "src/extensions/string_extensions.c:ext_str_join", "src/extensions/string_extensions.c:change_case", "src/extensions/string_extensions.c:ext_str_replicate"]}
{"id": "C67", "title": "str-split gives the pieces of the text", "statement": "With a number n, (str-split s n) is the text in pieces of n characters (1 if n is less), the last one being shorter if necessary. With a string, it is the list of the nonempty maximal runs of characters that are not in that string, in order. If memory runs out the result is the memory error, not a part of the list.", "quantifier": "all texts, all sets of separators, all numbers, all points at which memory runs out", "why_tests_cant": "Unboundedly many texts and points of failure.", "anchors": ["src/extensions/string_extensions.c:ext_str_split"]}
{"id": "C68", "title": "str-replace replaces the occurrences from left to right", "statement": "(str-replace s p r) is the text in which the occurrences of p, found from left to right without overlap, are replaced by r, or by nothing if r is missing; an empty p leaves the text as it is.", "quantifier": "all texts, patterns and replacements", "why_tests_cant": "Unboundedly many texts.", "anchors": ["src/extensions/string_extensions.c:ext_str_replace"]}
{"id": "C69", "title": "str-cmp is the lexicographic comparison", "statement": "The result of (str-cmp a b) is 0, negative or positive if the text a is equal to, lexicographically less than or greater than the text b; with a positive third argument n only the first n characters count.", "quantifier": "all texts, all numbers", "why_tests_cant": "Unboundedly many texts.", "anchors": ["src/extensions/string_extensions.c:ext_str_cmp"]}
{"id": "C70", "title": "str-find finds the occurrence that the options select", "statement": "(str-find s p) is the first index at which p occurs in s, or -1. A start index, a negative one counting from the end, an occurrence number, a list of patterns, and the symbols left and nocase select among the occurrences as documented. An index that is found is an index of the text.", "quantifier": "all texts, patterns and options in any order", "why_tests_cant": "Combinations of options and unboundedly many texts.", "anchors": ["src/extensions/string_extensions.c:ext_str_find", "src/extensions/string_extensions.c:ci_strncmp"]}
{"id": "C71", "title": "Numbers survive as text", "statement": "str-from-n of an integer is its decimal text and str-to-i of that text is the integer; str-to-i reads digits in any base from 2 to 36 with an optional sign.", "quantifier": "all integers of all types, all bases, all digit strings", "why_tests_cant": "2^64 values, unboundedly many texts.", "anchors": ["src/extensions/string_extensions.c:ext_str_from_n", "src/extensions/string_extensions.c:ext_str_to_i"]}
{"id": "C72", "title": "to-str joins the printed arguments", "statement": "(to-str-delim d x ...) is the texts of the arguments with d between them, cut off at the documented 298 characters; the result is a string.", "quantifier": "all lists of arguments, all delimiters, all contents of fresh memory", "why_tests_cant": "Unboundedly many arguments; depends on uninitialised memory.", "anchors": ["src/extensions/string_extensions.c:to_str"]}
{"id": "C73", "title": "Garbage collection is invisible to evaluation", "statement": "Whenever the collector runs, whatever it does to memory that is not in use and whichever free cell an allocation takes, a program computes the same value, ends in the same way and leaves the same global variables, including which parts are shared. Programs cannot tell when, how often or whether garbage was collected.", "quantifier": "all programs, all evaluator states, all numbers of steps, all schedules of collections, all contents of freed memory", "why_tests_cant": "A missing root shows only when a collection happens between two particular instructions and the freed cell is reused before it is read.", "anchors": ["src/eval_cps.c:gc", "src/eval_cps.c:mark_context", "src/eval_cps.c:cons_with_gc", "src/eval_cps.c:evaluation_step"]}
{"id": "C74", "title": "Values defined by the host survive collection", "statement": "A value that the host defines through the event queue is bound to its name with the contents it was sent with, also if defining it triggers a garbage collection.", "quantifier": "all values, names, heap states and collections", "why_tests_cant": "Needs a full heap at the moment an event is processed.", "anchors": ["src/eval_cps.c:handle_event_define", "src/eval_cps.c:lbm_event_define"]}
{"id": "C75", "title": "Drawing stays inside the array of the image", "statement": "No drawing function reads or writes a byte outside of the array of the image it is given, whatever the coordinates, sizes and attributes; width, height and format of the image stay as they are.", "quantifier": "all images, all sequences of drawing calls with all arguments", "why_tests_cant": "Unboundedly many images and calls; an access outside of the array need not be noticed.", "anchors": ["src/extensions/display_extensions.c:ext_putpixel", "src/extensions/display_extensions.c:putpixel", "src/extensions/display_extensions.c:fill_circle", "src/extensions/display_extensions.c:line", "src/extensions/display_extensions.c:fill_triangle", "src/extensions/display_extensions.c:blit_rot_scale", "include/extensions/display_extensions.h:image_buffer_is_valid"]}
{"id": "C76", "title": "Setting a pixel sets that pixel and no other", "statement": "(img-setpix img x y c) gives the pixel in column x and row y the colour c, rounded to what the format can hold, and changes no other pixel; outside of the image it changes nothing.", "quantifier": "all images of all formats, all coordinates, all colours", "why_tests_cant": "2^32 coordinates and colours, images of all sizes.", "anchors": ["src/extensions/display_extensions.c:putpixel", "src/extensions/display_extensions.c:rgb888to565", "src/extensions/display_extensions.c:rgb888to332", "src/extensions/display_extensions.c:getpixel"]}
{"id": "C77", "title": "Clearing sets all pixels", "statement": "After (img-clear img c) every pixel of the image has the colour that img-setpix with c would give it, and nothing behind the image is changed.", "quantifier": "all images of all formats, all colours", "why_tests_cant": "Images of all sizes.", "anchors": ["src/extensions/display_extensions.c:image_buffer_clear", "src/extensions/display_extensions.c:ext_clear"]}
{"id": "C78", "title": "Filled rectangles and triangles cover exactly their area", "statement": "A filled rectangle sets the pixels of its columns and rows, a filled triangle the pixels whose centres lie in the triangle or on its sides, also if the corners are in a line or coincide. No other pixel is changed; parts outside of the image are cut off.", "quantifier": "all images, all positions and sizes, all triples of corners", "why_tests_cant": "Unboundedly many shapes.", "anchors": ["src/extensions/display_extensions.c:rectangle", "src/extensions/display_extensions.c:fill_triangle", "src/extensions/display_extensions.c:point_past_line"]}
{"id": "C79", "title": "A line runs from one end to the other without gaps", "statement": "img-line sets a sequence of pixels, each touching the next one, that contains both ends, stays in their box and close to the straight line; horizontal, vertical and diagonal lines are exact. A thick line sets the disks around these pixels, a dotted one those around some of them.", "quantifier": "all pairs of ends, all thicknesses and dot lengths, all images", "why_tests_cant": "Quadratically many lines for every size.", "anchors": ["src/extensions/display_extensions.c:line"]}
{"id": "C80", "title": "img-blit copies the overlap", "statement": "Without rotation and scaling, img-blit gives each pixel of the destination that is covered by a pixel of the source that is not transparent the colour of that pixel, and leaves all other pixels as they are.", "quantifier": "all pairs of images of all formats, all positions, all transparent colours", "why_tests_cant": "Pairs of images of all sizes and contents.", "anchors": ["src/extensions/display_extensions.c:blit_rot_scale", "src/extensions/display_extensions.c:ext_blit"]}
{"id": "C81", "title": "Circles are round and closed", "statement": "The outline of a circle is symmetric, less than a pixel away from the circle and closed: no way of horizontal and vertical steps leads from the inside to the outside without meeting it. A filled circle sets the pixels within the radius of the centre.", "quantifier": "all centres, all radii, all images", "why_tests_cant": "Unboundedly many radii.", "anchors": ["src/extensions/display_extensions.c:circle", "src/extensions/display_extensions.c:fill_circle", "src/extensions/display_extensions.c:ext_circle"]}
{"id": "C82", "title": "The outline of a rectangle is its border", "statement": "A rectangle that is not filled sets the first and last row and the first and last column of the filled rectangle with the same arguments.", "quantifier": "all positions and sizes, all images", "why_tests_cant": "Unboundedly many shapes.", "anchors": ["src/extensions/display_extensions.c:rectangle", "src/extensions/display_extensions.c:ext_rectangle"]}
{"id": "C83", "title": "Text sets the pixels of its characters", "statement": "img-text gives exactly the pixels of the characters, which stand next to each other to the right, upwards or downwards, the colours that the font and the arguments give them; characters that the font does not contain are left blank, a negative background is transparent. Arrays that are not fonts are refused.", "quantifier": "all images, all fonts with 1 or 2 bits per pixel, all strings, all positions and directions", "why_tests_cant": "Unboundedly many fonts, strings and positions.", "anchors": ["src/extensions/display_extensions.c:img_putc", "src/extensions/display_extensions.c:ext_text"]}
{"id": "C84", "title": "Gradients run from one colour to the other", "statement": "A gradient has at each position a colour between its two colours. It starts with the first one at its offset, comes nearer to the second one over its width and repeats itself; a mirrored one returns. A precalculated gradient has the same colours.", "quantifier": "all pairs of colours, all widths and offsets, all positions", "why_tests_cant": "2^48 pairs of colours, 2^32 widths and offsets.", "anchors": ["src/extensions/display_extensions.c:lbm_display_rgb888_from_color", "src/extensions/display_extensions.c:color_allocate", "include/extensions/display_extensions.h:color_apply_precalc"]}
{"id": "C85", "title": "Sets have no element twice", "statement": "(set-insert s v) is a list with the elements of s and v, in which v occurs only once if it was in s already; (set-union a b) has exactly the elements of a and b; member finds an element iff it is there. The lists given to them are not changed. If the heap is too small they fail with an out of memory error.", "quantifier": "all lists, all values, all heaps", "why_tests_cant": "Lists of all lengths, elements of all shapes, all numbers of free cells.", "anchors": ["src/extensions/set_extensions.c:ext_set_insert", "src/extensions/set_extensions.c:ext_set_union", "src/extensions/set_extensions.c:set_insert", "src/extensions/set_extensions.c:ext_member"]}
{"id": "C86", "title": "Evaluation makes no dangling references", "statement": "If the built-in functions only make, read and change cells that their arguments, the environment and the global variables lead to, then so does every program: whatever can be reached from a context, from its result, from the global variables or from a captured continuation is an allocated cell, after any number of steps and also when the program ends with an error.", "quantifier": "all programs, all stores, all stack sizes, all numbers of steps", "why_tests_cant": "Unboundedly many programs and states.", "anchors": ["src/eval_cps.c:evaluation_step", "src/eval_cps.c:lbm_run_eval"]}
{"id": "C87", "title": "A program cannot reach what it is not given", "statement": "A cell that cannot be reached from a context when it starts to evaluate is never changed by it and never becomes reachable, neither for the context nor from its result or the global variables (same condition on the built-in functions as in C86).", "quantifier": "all programs, all stores, all stack sizes, all numbers of steps, all unreachable cells", "why_tests_cant": "Unboundedly many programs and states.", "anchors": ["src/eval_cps.c:evaluation_step", "src/eval_cps.c:lbm_run_eval"]}
{"id": "C88", "title": "map applies its function to each element, in order", "statement": "(map f l), for a function f, is a new list of the values of the calls of f for the elements of l, in order. The calls are made in the environment of map, one after the other; between them nothing changes that the program can see. The results do not depend on the cells map uses.", "quantifier": "all functions, all lists, all programs", "why_tests_cant": "Lists of all lengths, functions that change the list or keep their arguments.", "anchors": ["src/eval_cps.c:apply_map", "src/eval_cps.c:cont_map"]}
{"id": "C89", "title": "Collection by pointer reversal", "statement": "In a build with the pointer reversal collector, a garbage collection needs no stack of its own and ends for every heap, also with cyclic structures and arrays that are empty or contain themselves. Afterwards all pointers are as before, everything reachable is unchanged and exactly the rest is free.", "quantifier": "all heaps, all roots, all shapes of the object graph", "why_tests_cant": "Graphs of all sizes and shapes; a pointer that is not restored is seen only when a program comes back to it.", "anchors": ["src/heap.c:lbm_gc_mark_phase_nm", "src/heap.c:lbm_gc_mark_env", "src/eval_cps.c:gc"]}
{"id": "C90", "title": "Results do not depend on when memory is collected or on where cells are", "statement": "As long as memory does not run out, the value or error that a program ends with, and the values of the global variables afterwards, are the same whether or not garbage is collected while it runs, however often and at whatever points of the execution, and whichever free cells the allocator hands out; only identity of cells, never their address, can influence evaluation, and garbage never does.", "quantifier": "every program, every stack size, every number of steps, every placement of collections between the steps, every assignment of addresses to the cells in use and every content of the cells that are not", "why_tests_cant": "collections happen at points that depend on the heap size and on all that ran before; a test sees one placement of the collections and one assignment of addresses", "anchors": ["src/eval_cps.c:evaluation_step", "src/eval_cps.c:gc", "src/eval_cps.c:cons_with_gc", "src/heap.c:lbm_heap_allocate_cell", "src/env.c"]}
{"id": "C91", "title": "Reading accepts expressions and nothing else", "statement": "read gives the first expression of a text and read-program the list of all its expressions: exactly the texts whose tokens form expressions (names, numbers, strings, characters, lists, dotted lists, progn blocks, byte arrays, quoted expressions) are accepted, the result is the expression that was written, and the text has only one meaning. Reading ends for every text. Anything else, such as unbalanced or mismatched brackets, is an error.", "quantifier": "all texts, all symbol tables, all heaps", "why_tests_cant": "unboundedly many texts, lists nested to any depth", "anchors": ["src/eval_cps.c:cont_read_next_token", "src/eval_cps.c:cont_read_append_continue", "src/eval_cps.c:cont_read_start_array", "src/eval_cps.c:cont_read_append_array", "src/eval_cps.c:cont_read_dot_terminate", "src/eval_cps.c:cont_read_expect_closepar", "src/eval_cps.c:read_finish", "src/eval_cps.c:cont_read_done", "src/tokpar.c"]}
{"id": "C92", "title": "Pausing the evaluator", "statement": "When a program that embeds the evaluator asks it to pause, to continue, to reset or to end, the evaluator does so after at most the evaluation steps left of its quota. From the moment at which it reports that it is paused (or reset) until it is asked for something else, it does not touch the heap, the memory or the queues, so that the other thread can use them. If it was asked to have a number of cells free, it collects garbage before it pauses.", "quantifier": "all interleavings of the evaluator and another thread, all sequences of requests, all quotas", "why_tests_cant": "races between two threads over five unprotected variables; a bad interleaving is rarely seen in a test", "anchors": ["src/eval_cps.c:lbm_run_eval", "src/eval_cps.c:lbm_pause_eval", "src/eval_cps.c:lbm_pause_eval_with_gc", "src/eval_cps.c:lbm_continue_eval", "src/eval_cps.c:lbm_reset_eval", "src/eval_cps.c:lbm_kill_eval", "src/eval_cps.c:lbm_get_eval_state"]}
{"id": "C93", "title": "Processes do not influence each other except through data that one of them changes", "statement": "A process that uses no messages ends with the same value or error as when it runs alone, in whatever order the steps of all processes are taken and whenever memory is collected, as long as no other process changes a cell that it can reach or a global variable. It suffices that no process changes what two processes could reach in the beginning: what a process makes itself it may change. It is never prevented from going on except by an atomic block of another process.", "quantifier": "all programs, all numbers of processes, all schedules, all stack sizes, all placements of collections", "why_tests_cant": "schedules depend on timing and on the other processes; a test sees a few of them", "anchors": ["src/eval_cps.c:lbm_run_eval", "src/eval_cps.c:evaluation_step", "src/eval_cps.c:gc", "src/eval_cps.c:dequeue_ctx"]}
{"id": "C94", "title": "Memory and ids of processes", "statement": "The memory of a process (its record, stack, mailbox and name) belongs to it alone while it exists and is given back completely when it ends, whichever way it ends. When a process cannot be created for lack of memory, nothing is lost. No two processes that exist at the same time have the same id.", "quantifier": "all histories of creating, running, ending, killing processes, sending messages, resizing mailboxes and collecting memory, all sizes of the memory", "why_tests_cant": "leaks show only after long histories; the ids depend on the layout of the memory", "anchors": ["src/eval_cps.c:lbm_create_ctx_parent", "src/eval_cps.c:finish_ctx", "src/eval_cps.c:ok_ctx", "src/eval_cps.c:error_ctx_base", "src/eval_cps.c:apply_kill", "src/eval_cps.c:create_mailbox"]}
{"id": "C95", "title": "spawn-trap: the parent learns how its child ended", "statement": "When a process made with spawn-trap ends, its parent gets the message (exit-ok id v) or (exit-error id e), exactly once, and nobody else gets it. A process that still runs has sent none.", "quantifier": "all histories of any number of processes, all sizes of the memory, all states of the mailboxes", "why_tests_cant": "the end of parent and child can happen in any order and with any amount of free memory; ids are used again", "anchors": ["src/eval_cps.c:ok_ctx", "src/eval_cps.c:error_ctx_base", "src/eval_cps.c:lbm_find_receiver_and_send", "src/eval_cps.c:apply_spawn_base", "src/eval_cps.c:apply_kill"]}
{"id": "C96", "title": "A new process computes the call it was made with", "statement": "(spawn f x1 ... xn) makes a process that evaluates the body of f with its parameters bound to x1 ... xn, like the call (f x1 ... xn): it ends with the same value or error, whatever other processes do, as long as they do not change data it uses. A wrong number of arguments is treated as in a call.", "quantifier": "all functions, all numbers of arguments, all schedules, all placements of collections", "why_tests_cant": "functions and schedules are unbounded; a wrong binding shows only with particular numbers of arguments and stack contents", "anchors": ["src/eval_cps.c:apply_spawn_base", "src/eval_cps.c:lbm_create_ctx_parent", "src/eval_cps.c:cont_application_start", "src/eval_cps.c:cont_closure_application_args"]}
{"id": "C97", "title": "eval-program evaluates the expressions of a program", "statement": "(eval-program p) and (eval-program env p) evaluate the expressions of the list p one after the other, in the environment given or in that of the call; the value is that of the last one. When it is done - with a value, by an error or by leaving through a continuation - the program that the context was running goes on where it was, and nothing that the expressions do changes what is left to do.", "quantifier": "all programs, all expressions in them, all stacks and programs of the context, nested calls", "why_tests_cant": "programs are unbounded; the rest of a program is data in the heap, which the expressions could reach or which an error could leave behind", "anchors": ["src/eval_cps.c:apply_eval_program", "src/eval_cps.c:advance_ctx", "src/eval_cps.c:eval_app_cont", "src/heap.c:lbm_list_copy", "src/heap.c:lbm_list_append"]}
{"id": "C98", "title": "Destructors of custom values", "statement": "The destructor of a value of a custom type is called with it exactly once: by custom-destruct, or by the first collection after the value can no longer be reached, and never while it can be reached otherwise. Until then the value keeps the word and the description it was created with. When the value is gone its memory is given back, and a creation that fails changes nothing.", "quantifier": "all histories of creations, destructions, other allocations and writes, and collections; all heaps and roots", "why_tests_cant": "Histories are unbounded; a destructor that is called twice or too early, or never, shows only in the resources that the embedding program has behind the value.", "anchors": ["src/lbm_custom_type.c:lbm_custom_type_create", "src/lbm_custom_type.c:lbm_custom_type_destroy", "src/heap.c:lbm_gc_sweep_phase", "src/fundamental.c:fundamental_custom_destruct", "src/extensions/matvec_extensions.c:vector_float_allocate"]}
{"id": "C99", "title": "Arrays of values", "statement": "mkarray gives a new array of n elements nil. After (setix a i v) the element (ix a i) is v, all other elements and everything else are as before; an index outside of the array is an error that changes nothing. list-to-array and array-to-list give an array and a list with the same elements in the same order, leave their argument as it is, and are inverse to each other. Without memory they report out_of_memory and change nothing.", "quantifier": "all arrays, lists, indices and values; both word sizes", "why_tests_cant": "Sizes, indices and contents are unbounded; sizes in bytes can overflow a word.", "anchors": ["src/fundamental.c:fundamental_mkarray", "src/fundamental.c:fundamental_ix", "src/fundamental.c:fundamental_set_ix", "src/fundamental.c:fundamental_array_to_list", "src/fundamental.c:fundamental_list_to_array", "src/heap.c:lbm_heap_allocate_array_base"]}
{"id": "C100", "title": "wait returns when the process has ended", "statement": "(wait id) does not return while the process with that id exists, whatever it and other processes do. Once it has ended, wait returns t: at the latest at the first turn of the waiting process after a pause of 50 ms. The waiting process takes no turns in between.", "quantifier": "all schedules and histories of processes, other threads and clock values", "why_tests_cant": "Needs every interleaving of the waiting process with the creation, blocking and end of others; a test sees few schedules.", "anchors": ["src/eval_cps.c:apply_wait", "src/eval_cps.c:cont_wait", "src/eval_cps.c:context_exists", "src/eval_cps.c:yield_ctx"]}
{"id": "C101", "title": "Loops do what they say", "statement": "loopfor, loopwhile and looprange given the right number of arguments expand to code that does the loop, or to merror if the heap is too small for the code: never to code with a part missing. The code evaluates the condition, the update and the body in turn until the condition is nil; its value is the value of the last body, or nil. It uses no more stack for a million iterations than for one. (break v) leaves the loop with the value v, from any depth. loopforeach does its body for every element of a list.", "quantifier": "all conditions, updates, bodies, environments, continuations, numbers of iterations and heap sizes", "why_tests_cant": "Loop bodies are arbitrary programs, the number of iterations is unbounded, and a heap that runs out can do so at any of the allocations of the expansion.", "anchors": ["src/extensions/loop_extensions.c:ext_me_loopfor", "src/extensions/loop_extensions.c:ext_me_loopwhile", "src/extensions/loop_extensions.c:ext_me_looprange", "src/extensions/loop_extensions.c:ext_me_loopforeach", "src/extensions/loop_extensions.c:make_list"]}
{"id": "C102", "title": "A stack gives back what was put on it", "statement": "A stack of a context gives back the words that were pushed, last first, for any history of pushes, pops, drops, clears, and of areas that are reserved, read, written and removed at the top. A push on a full stack, a reservation that does not fit and a drop or area larger than the stack are refused and change nothing. No operation touches memory outside of the stack. The reported largest use of a stack is the largest number of words it has had.", "quantifier": "all stack sizes and all finite histories of operations", "why_tests_cant": "Whether an area reads a word that an earlier operation left there, and whether the boundary is respected, depends on the whole history of operations; tests use a few.", "anchors": ["src/stack.c:lbm_push", "src/stack.c:lbm_pop", "src/stack.c:lbm_pop_2", "src/stack.c:lbm_pop_3", "src/stack.c:lbm_stack_drop", "src/stack.c:lbm_get_max_stack", "src/eval_cps.c:stack_reserve", "src/eval_cps.c:get_stack_ptr", "src/eval_cps.c:pop_stack_ptr"]}
{"id": "C103", "title": "The profiler counts each sample once, for the process that ran", "statement": "After any samples, the profile has one entry for each process that was running at some sample, told apart by id and name, in the order in which they were first seen. Its count is the number of samples taken while this process ran, and its collection count the number of these during garbage collection. The number of samples is the sum of all counts, of the samples of the idle system and of those of the sleeping system. Initializing the profiler reports success.", "quantifier": "all sequences of samples, all process ids and names and all table sizes", "why_tests_cant": "The counts depend on the whole history of samples, which is up to the timing of the profiling thread, and on how names compare byte by byte.", "anchors": ["src/lbm_prof.c:lbm_prof_init", "src/lbm_prof.c:lbm_prof_sample", "include/lbm_prof.h:lbm_prof_t"]}
{"id": "C104", "title": "A program is evaluated expression by expression", "statement": "(read-eval-program text) evaluates the expressions with which the text begins, in order, each in the state that the evaluation of the one before has left, and reads the next one only after that. For a well-formed text these are the expressions that read-program gives, and the result is the value of the last one. An evaluation that fails ends it, and nothing after it is evaluated. Where the text is not well formed there is an error, after everything before that place has been evaluated.", "quantifier": "all texts, all initial states and all evaluators, including those that add symbols and data while the program is read", "why_tests_cant": "The text is arbitrary and every expression may change the heap and the symbol table that the reader goes on with; tests use short texts that are well formed.", "anchors": ["src/eval_cps.c:apply_read_base", "src/eval_cps.c:cont_read_eval_continue", "src/eval_cps.c:read_finish", "src/eval_cps.c:cont_read_done", "src/eval_cps.c:read_process_token"]}
{"id": "C105", "title": "random numbers", "statement": "(random) gives a number of type u below 268435183. After (seed n) the numbers that follow are determined by n, whatever was called before. No number comes twice in 268435182 calls in a row, and all numbers of the range but one come.", "quantifier": "all seeds, all histories of calls, all positions in the sequence; both word sizes", "why_tests_cant": "The sequence has a period of more than 200 million and there are four thousand million seeds; that there is no repetition is a fact about numbers, not something to be seen in samples.", "anchors": ["src/extensions/random_extensions.c:ext_seed", "src/extensions/random_extensions.c:ext_random", "src/heap.c:lbm_dec_as_u32"]}
{"id": "C106", "title": "The host can load and start programs", "statement": "lbm_load_and_eval_expression, lbm_load_and_eval_program and lbm_load_and_eval_program_incremental start a process whose program is ((eval (read text))), ((eval-program (read-program text))) or ((read-eval-program text)) with the text of the host; lbm_load_and_define_* start ((define s (read text))) for the symbol of the given name, which is created if it does not exist; lbm_eval_defined_* start ((eval s)) if the name has a global binding. If memory does not suffice they return -1 and start nothing: never a program with a part missing. Nothing else in the heap, the symbol table or the environment changes.", "quantifier": "all heaps, symbol tables, global environments, texts, names and numbers of free cells", "why_tests_cant": "The heap can run out at each of up to seven allocations, in any state of the heap; tests start programs on a heap with plenty of room.", "anchors": ["src/lbm_c_interop.c:eval_cps_load_and_eval", "src/lbm_c_interop.c:eval_cps_load_and_define", "src/lbm_c_interop.c:lbm_eval_defined", "src/eval_cps.c:lift_char_channel"]}
{"id": "C107", "title": "The evaluator's stack stays intact", "statement": "Whatever expression is evaluated, well formed or not, the stack of a context is a sequence of whole frames: the word on top tells how to continue, and below it are exactly the words which that continuation takes. This also holds for every stack that call-cc captured, after errors that trap caught and after jumps to continuations. The stack never grows to its end: where a push does not fit there is an error.", "quantifier": "all expressions, environments and stores, all stack sizes, all fundamental operations and extensions that leave captured stacks alone, all histories of steps", "why_tests_cant": "The states of the stack are those of all programs at all moments; tests see a few programs, and mostly well-formed ones.", "anchors": ["src/eval_cps.c:evaluation_step", "src/eval_cps.c:stack_reserve", "src/eval_cps.c:eval_app_cont", "src/eval_cps.c:error_at_ctx", "src/eval_cps.c:cont_application_start"]}
{"id": "C108", "title": "A JPEG picture is shown as it was encoded", "statement": "A picture that was encoded as baseline JPEG (grey, or colour with one of the three samplings that the decoder knows; without restart intervals) is given to the display pixel by pixel as the standard says: the code words are those of the canonical Huffman codes of the tables in the file, stuffed bytes are taken out, the coefficients are put into their places and multiplied, and the units are in their places. This holds for any tables in any order, with any data of applications and comments between them, and whatever follows the picture in the file.", "quantifier": "all sizes of pictures, all coefficients of 8 bit pictures, all Huffman tables that are codes, all quantization tables, all orders of segments that fit into the decoder's memory, all inverse transforms", "why_tests_cant": "The code words depend on tables in the file, and the bits lie across bytes, refills of the buffer and stuffed bytes in every way; sample pictures come from few encoders with few tables.", "anchors": ["src/extensions/tjpgd.c:huffext", "src/extensions/tjpgd.c:bitext", "src/extensions/tjpgd.c:create_huffman_tbl", "src/extensions/tjpgd.c:create_qt_tbl", "src/extensions/tjpgd.c:mcu_load", "src/extensions/tjpgd.c:jd_prepare", "src/extensions/tjpgd.c:jd_decomp", "src/extensions/display_extensions.c:ext_disp_render_jpg"]}
{"id": "C109", "title": "No file makes the JPEG decoder touch memory that is not its own", "statement": "Whatever bytes disp-render-jpg is given, the decoder ends, reads and writes only inside of the memory that it was given and of the byte array, and gives only pixels of the picture to the display, each of them at most once.", "quantifier": "all byte arrays, all pool sizes", "why_tests_cant": "A file can be wrong in any place; fuzzing samples the files.", "anchors": ["src/extensions/tjpgd.c:jd_prepare", "src/extensions/tjpgd.c:jd_decomp", "src/extensions/tjpgd.c:mcu_load", "src/extensions/tjpgd.c:mcu_output", "src/extensions/tjpgd.c:alloc_pool", "src/extensions/display_extensions.c:ext_disp_render_jpg", "src/extensions/display_extensions.c:jpg_input_func"]}
{"id": "C110", "title": "JPEG colours are those of the standard, cut to a byte", "statement": "The red, green and blue of a pixel are those that the standard gives for its brightness and colour up to rounding, and a value below 0 or above 255 is shown as 0 or 255.", "quantifier": "all brightness and colour values", "why_tests_cant": "The values come from the inverse transform of any coefficients; pictures with extreme ones are rare.", "anchors": ["src/extensions/tjpgd.c:mcu_output", "src/extensions/tjpgd.c:BYTECLIP", "src/extensions/tjpgd.c:Clip8"]}
{"id": "C111", "title": "Vectors and matrices compute elementwise and stay inside their memory", "statement": "vector, list-to-vector and list-to-matrix hold the numbers they were given, as floats and in order; vector-to-list, matrix-to-list and vproj give them back; a vector that is taken apart and put together again is the same bit for bit. axpy and vmult compute elementwise into a new vector and leave their arguments alone, dot and mag sum up from the left; vectors of different lengths are a type error. No call reads an element that was not written or touches memory outside of a vector or matrix.", "quantifier": "all lists of numbers of all types, all vectors and matrices, all arguments, all histories of calls, all outcomes of the allocators, both builds", "why_tests_cant": "The sizes, the contents and the moment at which memory runs out are arbitrary.", "anchors": ["src/extensions/matvec_extensions.c:ext_vector", "src/extensions/matvec_extensions.c:ext_list_to_vector", "src/extensions/matvec_extensions.c:ext_vector_to_list", "src/extensions/matvec_extensions.c:ext_vproj", "src/extensions/matvec_extensions.c:ext_axpy", "src/extensions/matvec_extensions.c:ext_dot", "src/extensions/matvec_extensions.c:ext_mag", "src/extensions/matvec_extensions.c:ext_vmult", "src/extensions/matvec_extensions.c:ext_list_to_matrix", "src/extensions/matvec_extensions.c:ext_matrix_to_list"]}
{"id": "C112", "title": "A filled rectangle with round corners is a part of the rectangle", "statement": "img-rectangle with the attributes filled and rounded sets exactly the pixels of the rectangle that are inside of the disks of its corners if they are in the squares of the corners. It sets no pixel outside of the rectangle.", "quantifier": "all images of all formats, positions, sizes, radii up to half of the sides and colours", "why_tests_cant": "Sizes, radii and positions are arbitrary, also outside of the image.", "anchors": ["src/extensions/display_extensions.c:ext_rectangle", "src/extensions/display_extensions.c:fill_circle", "src/extensions/display_extensions.c:rectangle"]}
{"id": "C113", "title": "img-blit scales and rotates", "statement": "With the attribute scale, img-blit shows each pixel of the source as a square whose size is the scale, the first one at the given position; by a whole factor n, n times n pixels. With the attribute rotate, each pixel of the destination gets the colour of the pixel of the source that the rotation about the given pixel moves there; for right angles the copy is exact. Transparent pixels and pixels that no pixel of the source is moved to stay as they are.", "quantifier": "all pairs of images, positions, centres of rotation, scales and angles", "why_tests_cant": "Pairs of images of all sizes and contents, and all scales and angles.", "anchors": ["src/extensions/display_extensions.c:blit_rot_scale", "src/extensions/display_extensions.c:ext_blit"]}
{"id": "C114", "title": "Drawing functions take numbers and attributes in any order", "statement": "A drawing function that needs n numbers takes an image followed by exactly n numbers and any attributes in any order. It uses the numbers in their order and, of each attribute, the numbers that were given last. Everything else is refused: a wrong count of numbers, a value that is neither a number nor an attribute, an unknown attribute, an attribute with the wrong count of numbers. No call makes the function write outside of its memory.", "quantifier": "all sequences of arguments", "why_tests_cant": "All argument lists of any length, with lists of any length among them, in all orders.", "anchors": ["src/extensions/display_extensions.c:decode_args"]}
{"id": "C115", "title": "A process that waits for a message gets it", "statement": "A process that is blocked in recv or recv-to has no message in its mailbox that one of its patterns accepts. If a message is sent to it that one of them accepts, it runs again and receives this message, in the first clause that accepts it, whatever the other processes and the host do in the meantime. send returns true exactly if the process exists.", "quantifier": "all executions: any number of processes, sends, receives, timeouts, sleeps, kills, creations and scheduling rounds in any order", "why_tests_cant": "The interleavings of any number of processes over any number of steps.", "anchors": ["src/eval_cps.c:lbm_find_receiver_and_send", "src/eval_cps.c:receive_base", "src/eval_cps.c:cont_recv_to", "src/eval_cps.c:cont_recv_to_retry", "src/eval_cps.c:wake_up_ctxs_nm"]}
{"id": "C116", "title": "Events reach their destination", "statement": "The host is told whether an event is accepted: it is exactly if there is room in the queue (and a handler is registered, for events for it). Accepted events are delivered in order, each exactly once, with the contents they had when they were posted: a value for the event handler is a message in its mailbox, a blocked process that is unblocked continues with its value, a definition or call is made. A handler that waits for such a message receives it. Each buffer of an accepted event is freed exactly once.", "quantifier": "all executions: any interleaving of hosts that post events, processes that run, send, wait and end, and the evaluator delivering events", "why_tests_cant": "The interleavings of any number of threads and processes over any number of steps.", "anchors": ["src/eval_cps.c:process_events", "src/eval_cps.c:get_event_value", "src/eval_cps.c:handle_event_unblock_ctx", "src/eval_cps.c:event_internal", "src/eval_cps.c:lbm_event", "src/eval_cps.c:lbm_unblock_ctx"]}
{"id": "C117", "title": "env-get and env-set give access to the global environment", "statement": "(env-get n) is an association list of exactly the global variables that belong to bucket n mod 32, with their values. After (env-set n e), for an association list e of variables of that bucket, these variables have the values in e, others of the bucket have none and no other variable has changed; definitions, assignments and undefine go on working. Storing the 32 values that env-get gave restores the global environment as it was.", "quantifier": "all histories of definitions, assignments, undefine, env-set and garbage collections, all indices", "why_tests_cant": "The histories are unbounded, and the values returned share cells with the environment that later operations change in place.", "anchors": ["src/extensions/runtime_extensions.c:ext_env_get", "src/extensions/runtime_extensions.c:ext_env_set", "src/env.c:lbm_get_global_env", "src/env.c:lbm_env_set"]}
{"id": "C118", "title": "The stack of the garbage collector can be replaced", "statement": "(set-gc-stack-size n) gives the collector a stack of n words in a block of its own and frees the old one; if there is no room for it beside the old one the result is the memory error and the old stack stays. The collector never writes outside the block of its stack.", "quantifier": "all histories of the memory and of calls, all arguments, both word sizes", "why_tests_cant": "All sizes, and all histories of the allocator.", "anchors": ["src/extensions/runtime_extensions.c:ext_set_gc_stack_size", "src/lbm_memory.c:lbm_malloc", "src/stack.c:lbm_push"]}
{"id": "C119", "title": "A thin arc is the part of a thin circle between its ends", "statement": "img-arc with thickness 1 and a radius r draws, of the pixels of the disk of radius r that have a neighbour outside of the disk, those whose direction from the centre is between the directions of the two end points of the arc, and no others; the pixels of a whole thin circle leave no hole.", "quantifier": "all images, centres, radii from 2 to 16383, end points, colours, arcs shorter or longer than a half circle", "why_tests_cant": "All radii and pairs of directions; the tests of a pixel are signs of cross products with special cases on the lines through the ends.", "anchors": ["src/extensions/display_extensions.c:thin_arc", "src/extensions/display_extensions.c:handle_thin_arc_pixel", "src/extensions/display_extensions.c:points_same_quadrant"]}
{"id": "C120", "title": "Freeing a buffer is safe for everything else", "statement": "free on a byte array gives back exactly its memory, and every later access through any reference to it is rejected by the functions that check their arguments, including a second free and the garbage collector; all other byte arrays keep their size and contents. An access to an array stays inside memory that belongs to this array alone. A new array has zeros in it and leaves the others as they are; when there is no memory for it nothing is lost.", "quantifier": "all histories of creations, writes, explicit frees and collections of byte arrays, all sizes of memory, all arrays of any size including empty ones, allocation failing at each step", "why_tests_cant": "A stale reference may be kept anywhere and the freed words may be reused at once by another array; only the order of the updates makes this safe, for every order of events.", "anchors": ["src/heap.c:lbm_heap_explicit_free_array", "src/heap.c:lbm_heap_allocate_array", "src/extensions/array_extensions.c:array_extension_unsafe_free_array", "include/heap.h:lbm_is_array_r"]}
{"id": "C121", "title": "A continuation stays in the stack of the process that applies it", "statement": "call-cc stores exactly the stack of the process. Whoever applies the continuation later, however often and whatever happened in between, gets exactly this stack, and being in an atomic block is as it was at the capture. Stacks of other processes and stored continuations do not change when a process pushes, pops, captures or applies continuations or ends. A process can always apply its own continuations.", "quantifier": "all histories of processes with stacks of any sizes that push, pop, capture, apply continuations of themselves or of others, end, and of collections, in a memory of any size that is shared with other users", "why_tests_cant": "Continuations can be sent to other processes, and the sizes of stacks are chosen per process; every combination of sizes, orders and places in memory matters.", "anchors": ["src/eval_cps.c:eval_callcc", "src/eval_cps.c:cont_application_start", "src/stack.c:lbm_stack_allocate"]}
{"id": "C122", "title": "The built-in functions on lists do not depend on addresses or garbage and reach only what they are given", "statement": "cons, car, cdr, list, append, set-car, set-cdr, setix, ix, assoc, acons, set-assoc, cossa, length, take, drop, eq, not, list? and the functions on numbers change no cell that cannot be reached from their arguments, make no reference to such a cell, and their results do not depend on where cells are or on garbage. So a program that uses them gives the same result whether or not memory is collected while it runs, and never changes or reaches what it is not given.", "quantifier": "all arguments, all contents of the heap including shared and cyclic structure, all programs that call these functions, all points of collection", "why_tests_cant": "The condition is about all heaps and all placements of cells; a test has one heap and one placement, and a dependence on an address shows only with another one.", "anchors": ["src/fundamental.c:fundamental_append", "src/fundamental.c:fundamental_set_ix", "src/fundamental.c:assoc_lookup", "src/fundamental.c:struct_eq", "src/heap.c:lbm_list_copy", "src/env.c:lbm_env_set_functional"]}
{"id": "C123", "title": "Association lists", "statement": "(assoc l k) is the value of the first pair of l whose key is equal to k, and nil if there is none; it changes nothing. (acons k v l) is l with the pair (k . v) in front. (set-assoc l k v) replaces the first pair with the key k, or puts (k . v) in front if there is none. After (set-assoc l k v), assoc finds v for k, and for all other keys what it found before.", "quantifier": "all association lists of any length with any keys and values, all keys and values, all contents of the rest of the heap", "why_tests_cant": "Lists of any length with repeated keys and with keys that are lists themselves; the laws that relate set-assoc and assoc need all combinations of equal and identical keys.", "anchors": ["src/fundamental.c:fundamental_assoc", "src/fundamental.c:fundamental_set_assoc", "src/fundamental.c:fundamental_acons", "src/env.c:lbm_env_set_functional"]}
{"id": "C124", "title": "Colour objects keep their properties", "statement": "A colour made with img-color has the properties it was made with. After img-color-set of a property, img-color-get gives that value (width and offset have 16 bits) and all other properties are as before; a set that is refused changes nothing. img-color-setpre and img-color-getpre give access to the 512 entries of the table of a precalculated gradient and to nothing else; an entry that has been set is the colour of its column. Whatever has been done to a colour, drawing with it is defined.", "quantifier": "all kinds of colours, all arguments, all sequences of set and setpre, all pixels of images", "why_tests_cant": "The properties interact: the kind decides what can be set, the width bounds the table that drawing indexes, and the order of changes is arbitrary; tests use a few colours and sequences.", "anchors": ["src/extensions/display_extensions.c:ext_color_set", "src/extensions/display_extensions.c:ext_color_get", "src/extensions/display_extensions.c:ext_color_setpre", "src/extensions/display_extensions.c:ext_color_getpre", "include/extensions/display_extensions.h:color_apply_precalc"]}
{"id": "C125", "title": "Running out of memory inside a built-in function is repaired", "statement": "When a built-in function finds no free cell, it reports out_of_memory and has then changed nothing that was there before. The evaluator collects garbage and calls the function again; the second call gives the result that the first one would have given with enough memory, the same except for addresses. Only if the function needs more cells than the collection made free does the program see out_of_memory, and then nothing it uses has changed.", "quantifier": "all modelled built-in functions, all arguments and heaps, all numbers of free cells before and after the collection, all collections that keep what is in use", "why_tests_cant": "The failure can happen at each allocation of each function, for each shape of arguments; a function that writes before its last allocation is wrong only when memory runs out between the two. Tests do not reach these points.", "anchors": ["src/eval_cps.c:call_fundamental", "src/fundamental.c:fundamental_append", "src/fundamental.c:fundamental_acons", "src/fundamental.c:fundamental_set_assoc", "src/heap.c:lbm_list_copy", "src/heap.c:lbm_cons"]}
{"id": "C126", "title": "Arrays made from memory that the host already has", "statement": "An array that the host makes with lbm_share_array from its own memory has exactly the bytes that were given, with the contents they have. Neither free nor the garbage collector ever gives this memory back or changes it: only the two words of the header are freed, once. The same function makes an array of a block that was allocated from the system's memory; that block then belongs to the array and is given back with it, once. In both cases no other array is affected, and an access to any array never reaches the memory of another one that owns its data, a header or free memory. If there is no cell or no memory for the header, nothing has changed.", "quantifier": "all histories of creations, shares, writes, explicit frees and collections, all pointers and sizes that the host may give, allocation failing at each step", "why_tests_cant": "Whether a pointer is the host's is only found out when the array is freed, at any later time; a test sees a double free or a free of foreign memory only if the memory happens to be used again.", "anchors": ["src/heap.c:lbm_lift_array", "src/lbm_c_interop.c:lbm_share_array", "src/heap.c:lbm_heap_explicit_free_array", "src/lbm_memory.c:lbm_memory_free"]}
{"id": "C127", "title": "Reading from a string", "statement": "When a program reads expressions from a string (read, read-program, read-eval-program), the reader's channel is on the bytes of that string from the first to the one before its terminator. As long as the reader holds the channel, string and channel stay in memory, unmoved, however many collections there are and whatever else is allocated, freed or written in the meantime, even if nothing else refers to the string. When the channel is no longer used, its memory is given back, once. If there is no memory for a channel, there is one collection and a second attempt; if that fails too, the result is a memory error and nothing stays allocated.", "quantifier": "all heaps and strings, all histories of allocations, writes, destructions, further reads and collections during the reading, memory running out at each step", "why_tests_cant": "The string goes away only if a collection comes at the wrong moment while nothing but the reader knows the string; a test does not get there by chance, and freed memory usually still has its old contents.", "anchors": ["src/eval_cps.c:create_string_channel", "src/eval_cps.c:apply_read_base", "src/lbm_channel.c:lbm_create_string_char_channel", "src/heap.c:lbm_gc_mark_phase", "src/heap.c:lbm_gc_sweep_phase"]}
{"id": "C128", "title": "Constant arrays made from memory that the host already has", "statement": "lbm_share_const_array makes a constant array from a pointer and a size. When it succeeds, the array has exactly this pointer and size, now and after anything that is written to the constant heap later; no constant that existed before changes its meaning. With a working flash memory it succeeds exactly if there is room for a cell and a header; when it fails, nothing is written. All this also holds for any sequence of calls, and that a result never changes also when words of the flash memory cannot be written.", "quantifier": "all states of the constant heap, all pointers and sizes, all sequences of calls, all sets of words that cannot be written", "why_tests_cant": "Flash can be written only once per word: an overlap shows only for particular alignments and fill levels of the constant heap, and a faulty word only on one device.", "anchors": ["src/lbm_c_interop.c:lbm_share_const_array", "src/lbm_c_interop.c:share_const_array", "src/eval_cps.c:request_flash_storage_cell", "src/heap.c:lbm_write_const_raw"]}
{"id": "C129", "title": "type-of names the type of each value, is-nan and is-inf classify each number", "statement": "type-of answers with the symbol that names the type of the value, whether the value is held in a word or in a cell and whether the cell is constant or not; two values have the same answer exactly if they have the same type, and a value is a number exactly if the answer names a number type. is-nan and is-inf answer, for each floating point number, by the IEEE 754 meaning of its bits; with no for the other numbers; and with a type error for everything else.", "quantifier": "all values of the language on 32 and 64 bit builds, all bit patterns of floating point numbers", "why_tests_cant": "A switch over tags with a constant bit goes wrong only for one tag in one kind of memory; and the bit patterns of floating point numbers cannot be enumerated.", "anchors": ["src/fundamental.c:fundamental_type_of", "src/extensions/math_extensions.c:ext_is_nan", "src/extensions/math_extensions.c:ext_is_inf", "src/heap.c:lbm_is_number"]}
{"id": "C130", "title": "Literals of floating point numbers and of characters are read whole", "statement": "Reading a literal of a floating point number (sign, digits, point, digits, exponent with sign, suffix) followed by a delimiter or the end of the input yields a number of the type of the suffix, converted from exactly the text before the suffix, and consumes exactly the literal. After \\# every character except the backslash stands for itself; after \\#\\ the eleven documented names stand for their characters and every other name is a read error. No text that is not a literal is accepted as one.", "quantifier": "all literals with up to 127 characters before the suffix, all bytes, all text after the literal", "why_tests_cant": "The texts of literals are unbounded, and the tokenizer decides by looking at characters that may be those of another token.", "anchors": ["src/tokpar.c:tok_double", "src/tokpar.c:tok_char", "src/tokpar.c:special_chars", "src/eval_cps.c:cont_read_next_token"]}
{"id": "C131", "title": "set-car and set-cdr change exactly one field of one pair", "statement": "After any sequence of set-car, set-cdr and lbm_set_car_and_cdr, each field of each pair holds the value that was given last for this field of this pair, or its value from before. The answer is true exactly if the target is a pair in RAM; constants and everything else are refused. Nothing else changes: no other cell, no constant, not the free list, no mark.", "quantifier": "all heaps, all sequences of calls with all targets and values, also with aliases", "why_tests_cant": "Aliasing: an update of the wrong cell shows only through another reference to this cell.", "anchors": ["src/heap.c:lbm_set_car", "src/heap.c:lbm_set_cdr", "src/heap.c:lbm_set_car_and_cdr", "src/fundamental.c:fundamental_set_car", "src/fundamental.c:fundamental_set_cdr"]}
{"id": "C132", "title": "The report on the most memory in use", "statement": "lbm_memory_maximum_used reports the most words that were in use at any of the moments when the statistics were updated (at the start of each garbage collection). It never goes down; after an update it includes what is in use now. What was in use between two updates is in the report as well.", "quantifier": "all histories of allocations, frees, shrinks and updates, all sizes of the memory", "why_tests_cant": "A high-water mark is wrong only for histories whose peak is at the wrong moment.", "anchors": ["src/lbm_memory.c:lbm_memory_maximum_used", "src/lbm_memory.c:lbm_memory_update_min_free", "src/eval_cps.c:gc"]}
{"id": "C133", "title": "Flat values made by the host", "statement": "A host that makes a flat value with lbm_start_flatten, the functions f_* and lbm_finish_flatten never writes outside of the buffer, whatever it calls and whatever the answers were. All calls answer true exactly if their bytes fit. The calls for a value, in the order pair before its parts, leave in the buffer the bytes that flatten would make, and unflattening gives the value. Finishing keeps the buffer at its address, large enough for what was written, and gives the rest back without touching other blocks.", "quantifier": "all sequences of calls, all buffer sizes, all serialisable values, both word widths, all states of the memory", "why_tests_cant": "One size that is compared wrongly matters only for a value that ends at the last bytes of a buffer.", "anchors": ["src/lbm_flat_value.c:lbm_start_flatten", "src/lbm_flat_value.c:lbm_finish_flatten", "src/lbm_flat_value.c:f_cons", "src/lbm_flat_value.c:f_sym", "src/lbm_flat_value.c:f_lbm_array"]}
{"id": "C134", "title": "Restart markers", "statement": "Where a restart interval of a JPEG picture ends, the decoder goes on only behind the restart marker with the number that is due (modulo 8), and then without the bits that were in front of it; any other marker or data is reported as a wrong format.", "quantifier": "all states of the input, all markers, all numbers of intervals", "why_tests_cant": "One of 256 values of a byte that is taken for another marker is not met in good pictures.", "anchors": ["src/extensions/tjpgd.c:restart"]}
{"id": "C135", "title": "disp-render gives the driver the image, the place and sixteen colours", "statement": "disp-render calls the display driver exactly if there is one, its arguments are an image, two numbers and maybe a list, and the first sixteen elements of the list are numbers or colours. The driver gets the image, the place as given, and as colour number i the element number i of the list, black behind its end. A circular list ends as well. The result is true exactly if the driver accepts.", "quantifier": "all lists (any length, circular ones as well), all places, all drivers", "why_tests_cant": "A list of more than sixteen elements or a circular one is a program that no test contains until it has overrun the array.", "anchors": ["src/extensions/display_extensions.c:ext_disp_render"]}
{"id": "C136", "title": "flatten takes the memory of its result and nothing else", "statement": "flatten on a value ends with a byte array that has exactly the bytes of the value, or with an error. The array takes one cell, a header of two words and the words for its bytes, all of them new; no other memory is touched. After an error all memory is as before, except for one cell that the next collection takes back. The error is a memory error only if a collection has been tried and there is still no room; other errors depend on the value alone.", "quantifier": "all values, all states of the memory that a history can lead to, all collectors", "why_tests_cant": "A leak in an error path shows only after many failing calls, with exactly the values that fail late.", "anchors": ["src/lbm_flat_value.c:flatten_value", "src/lbm_flat_value.c:handle_flatten_error", "src/eval_cps.c:apply_flatten"]}
{"id": "C137", "title": "The host can read a part of the global environment as a flat value", "statement": "lbm_flatten_env answers false for numbers that are not from 0 to 31, and does nothing else then. Otherwise, with enough memory, it delivers the flat value of that part of the environment: reading it gives the same bindings again. The bytes are in memory that nothing else uses; the first collection after the evaluator continues gives all of it back, so that nothing is lost.", "quantifier": "all numbers, all environments, all states of the memory that a history can lead to", "why_tests_cant": "Whether the bytes are the host's alone, and whether they are given back, depends on the whole history of the memory.", "anchors": ["src/lbm_c_interop.c:lbm_flatten_env", "src/lbm_flat_value.c:flatten_value"]}
{"id": "C138", "title": "Every ready process gets its turn after a bounded number of steps of the others", "statement": "A process that is ready and has k others before it makes its next evaluation step after at most the steps left of the current quota and k full quotas of the others, whatever these do, and while new processes arrive, as long as nobody kills it. After its quota a process is put behind all that are ready. set-eval-quota sets the quota for all turns to come; no value of it stops the programs.", "quantifier": "all queues, quotas and histories of steps, arrivals and turns", "why_tests_cant": "The bound is about every possible interleaving; a test sees one.", "anchors": ["src/eval_cps.c:lbm_run_eval", "src/eval_cps.c:lbm_set_eval_step_quota", "src/extensions/runtime_extensions.c:ext_eval_set_quota"]}
{"id": "C139", "title": "The collector reports its own work exactly", "statement": "lbm-heap-state reports, after any history of allocations, writes and collections, the exact number of collections, as the last free count the number of cells that were unreachable at the last collection, as the least free count the smallest of the free counts after all collections and of the size of the heap, as the recovered arrays the number of all arrays that collections found unreachable, and as the marked cells the number of cells that the last collection kept.", "quantifier": "all histories of the heap, all roots", "why_tests_cant": "The counters sum up an unbounded history; a test compares a few numbers of one program.", "anchors": ["src/heap.c:lbm_heap_new_freelist_length", "src/heap.c:lbm_gc_state_inc", "src/heap.c:lbm_gc_sweep_phase", "src/eval_cps.c:gc", "src/extensions/runtime_extensions.c:ext_heap_state"]}
{"id": "C140", "title": "An image has the size it was made with", "statement": "(img-buffer fmt w h) and (img-buffer dm fmt w h) make, for a format and sizes from 1 to 31999, an array with exactly the bytes that the pixels need behind five bytes of header; img-buffer? accepts it, img-dims gives (w h), and without a defragmented memory all its pixels are zero. Other arguments are a type error; a call that makes no image keeps no memory. img-dims answers exactly for the arrays that img-buffer? accepts, these have room for all their pixels, and img-buffer? is nil for everything that is not a byte array.", "quantifier": "all arguments, contents of the memory and outcomes of allocations, all byte arrays", "why_tests_cant": "The sizes range over 10^9 pairs in six formats with roundings, and img-buffer? has to judge every byte array.", "anchors": ["src/extensions/display_extensions.c:ext_image_buffer", "src/extensions/display_extensions.c:image_buffer_allocate", "src/extensions/display_extensions.c:image_buffer_allocate_dm", "src/extensions/display_extensions.c:ext_is_image_buffer", "src/extensions/display_extensions.c:ext_image_dims", "include/extensions/display_extensions.h:image_buffer_is_valid"]}
{"id": "C141", "title": "The sizes of the symbol table are those of its entries", "statement": "symtab-size, symtab-size-flash, symtab-size-names and symtab-size-names-flash give, after any history of added and read symbols and extensions, the bytes that entries and names take in RAM and in flash: twelve bytes for each entry, the name with its zero, in flash rounded up to words. Counting does not change what the table does.", "quantifier": "all histories of operations and outcomes of memory and flash", "why_tests_cant": "The counters are changed at five places in step with the lists; a wrong one shows after some histories only.", "anchors": ["src/symrepr.c:lbm_get_symbol_table_size", "src/symrepr.c:lbm_get_symbol_table_size_flash", "src/symrepr.c:lbm_get_symbol_table_size_names", "src/symrepr.c:lbm_get_symbol_table_size_names_flash", "src/symrepr.c:add_symbol_to_symtab", "src/symrepr.c:add_symbol_to_symtab_flash", "src/symrepr.c:store_symbol_name_flash", "src/symrepr.c:lbm_add_symbol_const_base"]}
{"id": "C142", "title": "Mathematical functions of any numbers", "statement": "sin, cos, tan, asin, acos, atan, atan2, pow, exp, sqrt, log, log10, floor, ceil and round take as many numbers as the C function, of any types, convert them to float and give its value. deg2rad and rad2deg convert one number, or give the list of any other number of numbers converted, in order. An argument that is not a number or a wrong number of arguments is an error with its reason. Without memory for the result there is a memory error, never a part of the list or a list that contains an error, so that the evaluator can collect garbage and try again.", "quantifier": "all functions, argument lists, numbers of free cells, both word sizes, all floating point units and C libraries", "why_tests_cant": "The list is made from its end with an allocation at each step and no check; what a failure in the middle leaves depends on the number of cells left.", "anchors": ["src/extensions/math_extensions.c:ext_pow", "src/extensions/math_extensions.c:ext_deg2rad", "src/extensions/math_extensions.c:ext_rad2deg", "src/extensions.c:lbm_check_argn_number", "src/extensions.c:lbm_check_number_all", "src/heap.c:lbm_enc_float", "src/heap.c:lbm_cons"]}
{"id": "C143", "title": "The host can clear the environment", "statement": "lbm_clear_env ends; after it no symbol has a global binding, every value that a process holds (in its environment, registers, mailbox or stack) is unchanged, and all other cells are free and their memory has been handed back, once each.", "quantifier": "all heaps with arrays that fit the collector's stack, all global environments, all processes", "why_tests_cant": "The values that only the environment holds have to be told from those that processes share with it, in every heap.", "anchors": ["src/lbm_c_interop.c:lbm_clear_env", "src/eval_cps.c:lbm_perform_gc", "src/eval_cps.c:gc", "src/env.c:lbm_global_env_lookup"]}
{"id": "C144", "title": "No call that unblocks a process is lost", "statement": "When an extension asks for its process to be blocked and another thread then calls lbm_unblock_ctx_r or lbm_unblock_ctx_unboxed, that call does not return before this block has come to an end, even if it began before the extension returned; every block is ended at most once, a call that reports success has ended one, a process that did not ask is not blocked, and the mutex can always be given back by its owner alone.", "quantifier": "all interleavings of the evaluator with any number of threads, all histories of blocking, undoing, timeouts and wake-ups", "why_tests_cant": "The window between the extension's request and the moment the process is in the queue is hit only under rare schedules.", "anchors": ["src/eval_cps.c:lbm_unblock_ctx_r", "src/eval_cps.c:lbm_unblock_ctx_unboxed", "src/eval_cps.c:lbm_block_ctx_from_extension", "src/eval_cps.c:lbm_undo_block_ctx_from_extension", "src/eval_cps.c:application", "src/eval_cps.c:block_current_ctx"]}
