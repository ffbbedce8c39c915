# Formal model of lispBM: design

Target: svenssonjoel/lispBM at the pinned commit in `/repo` (read as text, never built).
The model and proofs are a Lean 4.33 Lake project in `lean/`. Every definition of the
model cites the file and lines it models, and states its simplifications there.

## Layout

For each subsystem `X` there are several files under `lean/Verif/X/`:

* `Model.lean`: transcription of the C functions, small total functions.
* `Spec.lean`: the independent specification the English property talks about
  (only where the statement would not be readable without it).
* other files: helper lemmas, invariants, simulation proofs.
* `Props.lean` (in `Tok` several files): the property theorems `Cnn_...` with, beside each, an `example`
  showing that a concrete non-trivial case meets the hypotheses, and the theorems
  that refute a property where the code violates it (`Cnn_..._violated`).

Names: a theorem with the suffix `_partial` proves a part of its property; what is missing is in its comment and in
`MANIFEST.json`. A theorem `_violated` is a proof, about the same model, that the code does not have the
property in some case; the status of such a property is `partial`, because the full statement is false.

Undefined behaviour in C (out-of-bounds access, signed overflow, shift by too many
bits, overlapping `memcpy`) is a separate outcome (`none` / `ub`), not silently totalised.
Loops that follow pointers take fuel; theorems say that some amount of fuel is enough and that more makes no difference.

## Trusted base

* Lean's kernel. Axioms: at most `propext`, `Classical.choice`, `Quot.sound`
  (standard in Lean). No own axioms, no `sorry`, no `native_decide`, no `bv_decide`. `decide` and `decide +kernel` are used for
  concrete witnesses and for statements about finite tables (all 256 bytes, the table of built-in symbols), never as a substitute for an unbounded statement.
* The reading of the C code: the model is hand-written; the C code is neither compiled
  nor run. Where the C code depends on the build (`LBM64`) both builds are modelled if the property depends on it.
* Sequential consistency at the granularity of the mutex-protected functions: code under
  `lbm_mutex_lock(&qmutex)`, the memory mutex and the event mutex is modelled as atomic.
* Parts that are parameters of the model, about which nothing (or only what is stated as a hypothesis) is assumed: IEEE arithmetic,
  `snprintf`/`strtod` of floating point numbers, extensions, the comparator of `sort`, the byte before an array.

## Axioms of each theorem

Output of `#print axioms` for the theorems named in `MANIFEST.json` (all other theorems use the same three axioms at most).

* No axioms: `Defrag.C23_pool_collected_violated`, `Defrag.C24_search_only_first_hole`, `Ev.C38_for_handler`, `Eval.C90_atomic_result`, `Eval.C90_list_result`, `Jpg.C108_zigzag`, `Jpg.C110_clip_violated`, `Custom.C127_moved_violated`, `Quota.C138_round`, `Sched.Blocking.C144_error_violated`.

* `propext` only: `Heap.C07_const_env_violated`, `Flat.C13_empty_byte_array_violated`, `Tok.C51_read_at_end_violated`, `Env.C22_after_failed_set_violated`, `Arith.C26_overflow_violated`, `Arith.C26_out_of_memory_violated`, `Arith.C27_div64_violated`, `Arith.C27_divzero_u_violated`, `Arith.C27_negative_u_violated`, `Arith.C27_overflow_violated`, `Arith.C28_type_error`, `Arith.C28_lt_violated`, `Arith.C28_mixed_sign_violated`, `Arith.C57_symbol_violated`, `Arith.C58_shift_violated`, `Eq.C29_opaque_violated`, `Eq.C29_nan_violated`, `Lists.C30_append_not_list`, `Lists.C30_arguments_kept`, `Lists.C30_range_wraps_violated`, `Lists.C30_range_overflow_violated`, `Lists.C30_setix_constant`, `Eval.C41_fatal`, `Eval.C41_spawn_trap_violated`, `Eval.C41_escape_violated`, `Eval.C41_define_violated`, `Eval.C41_arity_violated`, `Eval.C41_atomic_violated`, `Eval.C63_var_env_violated`, `Eval.C63_var_leak_violated`, `Eval.C64_argument_scope_violated`, `Buf.C45_not_writable`, `Buf.C45_index_violated`, `Buf.C46_bufcpy_violated`, `QQ.C44_splice_error`, `QQ.val_laws`, `Flash.C47_failed_write_violated`, `Flash.C47_wrap_violated`, `Flash.C48_in_place_partial`, `Flash.C48_empty_array_violated`, `Flash.C48_defrag_violated`, `Flash.C48_copied_violated`, `Str.C67_unique`, `Str.C68_unique`, `Img.circle_leaks`, `Img.gradient_mirror_violated`, `Img.gradient_no_width`, `Img.precalc_mirrored`, `Img.gradient_negative`, `Set.refused`, `Eval.C88_quote_violated`, `Heap.C89_channel_violated`, `Ctl.C92_pause_collects_violated`, `Eval.C96_missing_argument_violated`, `Eval.C96_rest_args_violated`, `Eval.C97_error_violated`, `Eval.C97_escape_violated`, `LoopExt.C101_foreach_nil_violated`, `LoopExt.C101_foreach_twice_violated`, `LoopExt.C101_update_first_violated`, `LoopExt.C101_capture_violated`, `Stack.C102_max_violated`, `Stack.C102_pop_violated`, `Prof.C103_short_names`, `Prof.C103_init_violated`, `Prof.C103_full_violated`, `Rand.C105_bad_seed`, `Host.C106_no_collection_violated`, `Jpg.C109_truncated_violated`, `Matvec.C111_vproj_violated`, `Matvec.C111_lengths`, `Img.Args.C114_ninth_violated`, `Img.Args.C114_fourth_violated`, `Env.C117_set_rejected`, `Rts.C118_rejected`, `Bufs.C120_unflatten`, `Bufs.C120_freed_violated`, `Eval.Builtin.C123_set_list_key_violated`, `Img.C124_get_set`, `Img.C124_width_violated`, `Bufs.C126_twice_violated`, `Heap.C131_set`, `Img.C135_render_no_colors`, `Img.C135_place_violated`, `Flat.C136_apply`, `Flat.C137_range`, `Quota.C138_never_stuck`, `Quota.C138_zero_violated`, `Heap.C139_marked_violated`, `Img.Buffer.C140_small_violated`.

* Quot.sound: `LoopExt.C101_range`.

* `propext`, `Quot.sound`: `Mem.Bitmap.rep_get`, `Mem.Bitmap.rep_init`, `Mem.C02_incomplete_after_rejected_free`, `Mem.C05_violated`, `Mem.C06_violated`, `Heap.C07_full_stack_violated`, `Heap.C07_empty_array_violated`, `Heap.C08_type_symbol_violated`, `Heap.C09_self_array_violated`, `Val.C11_symbol`, `Val.C11_unsigned`, `Val.C11_char`, `Val.C11_boxed`, `Val.C12_type_of`, `Val.C12_tags_distinct`, `Val.C12_cell_index`, `Val.C12_set_ptr_type`, `Val.C12_continuation_marker`, `Flat.C13_empty_lisp_array_violated`, `Flat.C14_size_of_serialisable`, `Flat.C15_array_length_violated`, `Flat.C15_symbol_name_violated`, `Flat.C15_no_memory_violated`, `Flat.C15_count_wraps_violated`, `Flat.C50_same_number`, `Flat.C50_same_unsigned`, `Flat.C50_silent_out_of_memory_violated`, `Tok.C53_overflow`, `Tok.C18_string_literal`, `Tok.C18_too_long`, `Tok.C18_only_literals_partial`, `Tok.C18_open_never_accepts`, `Tok.C19_closed_terminates`, `Tok.C51_string_channel`, `Tok.C51_position`, `Tok.C53_name_buffer`, `Tok.C54_blanks_ignored`, `Tok.C54_only_blanks`, `Env.C20_lookup_innermost`, `Env.C20_set_new`, `Env.C20_copy_unaffected`, `Arith.C58_byte_violated`, `Lists.C30_not_list`, `Lists.C30_length`, `Lists.C30_ix`, `Lists.C30_drop`, `Eval.Builtin.C30_eval_length`, `Eval.Builtin.C30_eval_drop`, `Eval.Builtin.C30_eval_ix`, `Ev.C38_not_ready`, `Mbox.C35_low_memory_violated`, `Mbox.C43_scope_partial`, `Sched.C34_atomic_violated`, `Sched.C37_wrap_violated`, `Sched.C37_wide_violated`, `Eval.glookupLoop_spec`, `Eval.modify_spec`, `Eval.setvar_spec_partial`, `Eval.copySpine_spec`, `Eval.fillLoc_spec`, `Eval.fillLoc_mismatch`, `Eval.C41_unwind_partial`, `Eval.C42_failed_guard_violated`, `Eval.C42_two_guards_violated`, `Eval.C62_loop_scope_violated`, `Eval.C62_closure_violated`, `Eval.C64_resume_partial`, `Buf.C45_i32_violated`, `Buf.C45_f32_inf_violated`, `Buf.C46_bufclear_safe_partial`, `Buf.C46_buflen_partial`, `QQ.C44_splice_tail_error`, `QQ.C44_error_symbol_violated`, `QQ.val_pure`, `Str.C65_any_partial`, `Str.C65_unterminated_violated`, `Str.C65_empty_violated`, `Str.C65_join_violated`, `Str.C66_join`, `Str.C66_case`, `Str.C71_digits`, `Str.C72_no_arguments_violated`, `Img.drawing_forged`, `Img.drawing_forged_wrap`, `Img.drawing_overflow`, `Img.drawing_overflow_line`, `Img.setpix_red_lost`, `Img.setpix_bleeds`, `Img.setpix_wraps`, `Img.clear_565_incomplete`, `Img.clear_two_black`, `Img.rectangle_wraps`, `Img.line_misses_end`, `Img.blit_red_lost`, `Img.circle_crooked`, `Img.rectangle_outline_larger`, `Img.text_font_overrun`, `Img.text_font_zero`, `Eval.cellPrims_local`, `Heap.C89_mark_phase_partial`, `Heap.C89_continuation_violated`, `Eval.cellPrims_blind`, `Print.C91_unambiguous`, `Print.C91_program_unambiguous`, `Ctl.C92_no_deadlock`, `Ctl.C92_paused_quiet_violated`, `Ctl.C92_reset_pauses_violated`, `Eval.C93_changes_are_seen`, `Proc.C94_id_reused_violated`, `Proc.C95_self_kill_violated`, `Proc.C95_no_memory_violated`, `Proc.C95_stranger_violated`, `Eval.C97_environment_violated`, `Custom.C98_vector_violated`, `Lists.C99_mkarray_partial`, `Lists.C99_ix`, `Lists.C99_mkarray_wraps_violated`, `Lists.C99_empty_violated`, `LoopExt.C101_expansion`, `Prof.C103_profile`, `Prof.C103_keys`, `Prof.C103_total`, `Prof.C103_long_violated`, `Rand.C105_reproducible`, `Rand.C105_fixed_violated`, `Eval.C107_escape_violated`, `Eval.C107_stale_violated`, `Jpg.C108_unique`, `Jpg.C109_overflow_violated`, `Jpg.C110_clip`, `Matvec.C111_vector`, `Matvec.C111_vector_error`, `Matvec.C111_list_to_vector`, `Matvec.C111_vector_to_list`, `Matvec.C111_round_trip`, `Matvec.C111_list_memory_violated`, `Matvec.C111_axpy`, `Matvec.C111_vmult`, `Matvec.C111_zero_columns_violated`, `Matvec.C111_matrix_to_list`, `Matvec.C111_custom_violated`, `Img.rounded_larger`, `Img.scale_fringe_example`, `Img.scale_zero_violated`, `Rts.C118_fits_64`, `Eval.Builtin.C122_local`, `Eval.Builtin.C122_blind`, `Eval.progPrims_local`, `Eval.progPrims_blind`, `Img.C124_make`, `Img.C124_settable`, `Img.C124_table`, `Img.C124_table_junk_violated`, `Eval.Builtin.C125_all_or_nothing`, `Eval.Builtin.C125_retry`, `Eval.Builtin.C125_called`, `Custom.C127_unterminated_violated`, `Flash.C128_share`, `Flash.C128_others`, `Flash.C128_all`, `Val.C129_type_of_partial`, `Val.C129_same`, `Val.C129_channel_violated`, `Flat.C133_sym`, `Img.C135_render`, `Img.C135_render_refused`, `Img.Buffer.C140_dims`, `Sched.Blocking.C144_retry_violated`.

* `propext`, `Classical.choice`, `Quot.sound`: `Mem.C01_blocks_disjoint`, `Mem.C01_allocation_fresh`, `Mem.C01_malloc_bytes`, `Mem.C01_malloc_reserve_bytes`, `Mem.Bitmap.rep_set`, `Mem.C02_allocation_complete`, `Mem.C02_malloc_reserve_complete`, `Mem.C03_free_live`, `Mem.C03_num_free_exact`, `Mem.C03_free_other`, `Mem.C04_shrink`, `Mem.C04_shrink_noop`, `Mem.C04_shrink_other`, `Mem.C05_rejected_free_partial`, `Mem.C06_longest_free_partial`, `Heap.C07_gc_preserves`, `Heap.C07_gc_preserves_no_arrays`, `Heap.C07_gc_preserves_partial`, `Heap.C08_gc_reclaims`, `Heap.C08_gc_reclaims_no_arrays`, `Heap.C09_gc_terminates_partial`, `Heap.C10_allocate_cell`, `Heap.C10_allocate_list`, `Heap.C10_num_free`, `Val.C11_signed_general`, `Val.C11_signed`, `Val.C11_unboxed32`, `Val.C12_injective`, `Val.C12_gc_bit`, `Val.C12_predicates`, `Flat.C13_round_trip_partial`, `Flat.C13_self_delimiting`, `Flat.C13_injective`, `Flat.C13_long_list_refused`, `Flat.C14_size_exact`, `Flat.C14_never_overruns`, `Flat.C15_in_bounds_partial`, `Flat.C15_terminates`, `Flat.C50_portable`, `Tok.C16_bounded_fifo_partial`, `Tok.C16_reads_in_order`, `Tok.C16_far_peek_violated`, `Tok.C16_column_violated`, `Tok.C17_integer_literal`, `Tok.C17_value`, `Tok.C17_default_type`, `Tok.C17_empty_hex_accepted`, `Tok.C18_lone_quote_accepted`, `Tok.C18_unterminated_accepted`, `Tok.C18_unknown_escape`, `Tok.C18_buffered_stuck`, `Tok.C19_any_schedule`, `Tok.C19_ring_dispatch`, `Tok.C52_symbol`, `Tok.C52_symbol_too_long`, `Tok.C53_in_bounds_partial`, `Env.C20_global_map`, `Env.C20_define_succeeds`, `Env.C20_set_bound`, `Env.C20_copy`, `Env.C20_setassoc`, `Env.C20_lbm_define_violated`, `Env.C21_failed_set_partial`, `Env.C21_failed_set_violated`, `Env.C21_failed_set_effect`, `Env.C21_set_bound`, `Env.C22_undefine`, `Env.C22_undefine_list`, `Defrag.C23_contents`, `Defrag.C23_disjoint`, `Defrag.C24_alloc_iff`, `Defrag.C24_alloc_cell`, `Sym.C25_injective`, `Sym.C25_alias_same`, `Sym.C25_id_stable`, `Sym.C25_name_stable`, `Sym.C25_name_of_id`, `Sym.C25_id_of_name`, `Sym.C25_intern`, `Sym.C25_intern_other`, `Sym.C25_refused`, `Sym.C25_read`, `Sym.C55_register`, `Sym.C55_register_succeeds`, `Sym.C55_register_other`, `Sym.C55_id_not_reused`, `Sym.C55_clear`, `Sym.C55_clear_wrong_violated`, `Sym.C56_builtin`, `Sym.C56_named_inside`, `Sym.C56_extension`, `Sym.C56_u2sym_violated`, `Arith.C26_add`, `Arith.C26_mul`, `Arith.C26_sub`, `Arith.C26_neg`, `Arith.C26_comm`, `Arith.C26_add_same`, `Arith.C26_mul_same`, `Arith.C26_sub_same`, `Arith.C26_add_mixed_partial`, `Arith.C26_add_exact`, `Arith.C26_add_type_error`, `Arith.C26_order_violated`, `Arith.C27_divzero`, `Arith.C27_div_partial`, `Arith.C27_mod`, `Arith.C28_leq`, `Arith.C28_geq`, `Arith.C28_numeq`, `Arith.C28_lt_gt_partial`, `Arith.C28_lt_gt_some`, `Arith.C57_convert`, `Arith.C57_roundtrip`, `Arith.C58_bitwise`, `Arith.C58_not`, `Arith.C58_shl`, `Arith.C58_shr`, `Eq.C29_decides`, `Eq.C29_eq`, `Eq.C29_equivalence_partial`, `Eq.C29_identical`, `Eq.C59_assoc`, `Eq.C59_cossa`, `Eq.C59_assoc_not_a_pair`, `Eq.C59_cossa_not_a_pair`, `Lists.C30_take`, `Lists.C30_reverse`, `Lists.C30_append`, `Lists.C30_append_lists`, `Lists.C30_range`, `Lists.C30_rotate_partial`, `Lists.C30_setix`, `Lists.C30_rotate_one_violated`, `Eval.Builtin.C30_eval_take`, `Sort.C31_sort`, `Sort.C31_sort_stable`, `Sort.C31_sort_strict`, `Sort.C31_sort_no_memory`, `Sort.C31_merge`, `Sort.C31_sort_unstable_strict`, `Sort.C31_captured_env_violated`, `Ev.C38_fifo`, `Ev.C38_push`, `Ev.C38_pop`, `Ev.C38_empty`, `Mbox.C35_send`, `Mbox.C35_newest`, `Mbox.C35_receive`, `Mbox.C35_receive_gc`, `Mbox.C36_resize_partial`, `Mbox.C36_resize_violated`, `Mbox.C43_scope_violated`, `Mbox.C60_timed_out_partial`, `Mbox.C60_timeout_violated`, `Sched.C32_one_place`, `Sched.C33_fair_partial`, `Sched.C33_fair_violated`, `Sched.C34_atomic_partial`, `Sched.C37_wake_partial`, `Sched.C37_sleeps`, `Sched.C61_unblock`, `Eval.C39_value_partial`, `Eval.C39_sized_partial`, `Eval.C39_program_partial`, `Eval.C39_deterministic_partial`, `Eval.lookup_spec`, `Eval.define_spec`, `Eval.createLoc_spec`, `Eval.C40_tail_partial`, `Eval.C40_constant_stack_partial`, `Eval.C41_value_partial`, `Eval.C41_error_partial`, `Eval.C42_start_partial`, `Eval.C42_body_partial`, `Eval.C42_guard_partial`, `Eval.C42_next_partial`, `Eval.C42_start_tidy_partial`, `Eval.C42_failed_guard_partial`, `Eval.C62_loop_partial`, `Eval.C64_capture_partial`, `Buf.C45_set`, `Buf.C45_get_partial`, `Buf.C45_roundtrip_partial`, `Buf.C45_outside_partial`, `Buf.C45_set_safe_partial`, `Buf.C45_wrap_violated`, `Buf.C45_f32_set`, `Buf.C45_f32_get_partial`, `Buf.C45_f32_roundtrip_partial`, `Buf.C45_f32_outside_partial`, `Buf.C45_f32_small_violated`, `Buf.C45_f32_get_violated`, `Buf.C46_bufclear_partial`, `Buf.C46_bufclear_outside`, `Buf.C46_bufcpy_partial`, `Buf.C46_bufcpy_outside`, `Buf.C46_bufset_bit`, `Buf.C46_bufclear_violated`, `QQ.C44_template`, `QQ.C44_evaluates_partial`, `QQ.C44_machine_partial`, `QQ.qqPrims_build`, `Flash.C47_regions_partial`, `Flash.C47_write_once_partial`, `Flash.C48_move_partial`, `Flash.C48_variables_partial`, `Print.C49_roundtrip_partial`, `Print.C49_print_partial`, `Print.C49_text_determines`, `Print.C49_program_partial`, `Print.C49_upper_case_violated`, `Print.C49_lisp_array_violated`, `Print.C49_empty_lisp_array_violated`, `Print.C49_large_array_violated`, `Print.C49_long_string_violated`, `Print.C49_looks_back_violated`, `Str.C65_terminated_partial`, `Str.C65_replicate_violated`, `Str.C66_len`, `Str.C66_part`, `Str.C66_replicate`, `Str.C66_part_join`, `Str.C67_split`, `Str.C68_replace`, `Str.C69_cmp`, `Str.C70_find`, `Str.C70_first`, `Str.C70_left_empty_violated`, `Str.C71_from_n_partial`, `Str.C71_to_i_partial`, `Str.C71_roundtrip_partial`, `Str.C71_wide_violated`, `Str.C71_large_violated`, `Str.C72_to_str_partial`, `Str.C72_empty_violated`, `Gc.gc_invisible`, `Gc.gc_invisible_lists`, `Gc.gc_schedule_invisible`, `Gc.gc_atom`, `Gc.builtin_sim`, `Gc.event_define_violated`, `Gc.event_define_partial`, `Img.imgBuffer_ok`, `Img.drawing_safe_image`, `Img.drawing_safe_partial`, `Img.setpix_partial`, `Img.setpix_get_partial`, `Img.clear_partial`, `Img.clear_quarter`, `Img.rectangle_partial`, `Img.triangle_partial`, `Img.line_partial`, `Img.line_thick_partial`, `Img.line_dotted_partial`, `Img.triangle_outline_partial`, `Img.blit_partial`, `Img.blit_same_partial`, `Img.circle_partial`, `Img.circle_thick_partial`, `Img.circle_thick_violated`, `Img.rectangle_outline_partial`, `Img.text_partial`, `Img.gradient_partial`, `Img.precalc_partial`, `Img.gradient_mirror_partial`, `Img.gradient_half_partial`, `Set.member_spec`, `Set.insert_spec`, `Set.union_partial`, `Set.nan_twice`, `Eval.C86_sound`, `Eval.fine_steps`, `Eval.C87_untouched`, `Eval.C88_map`, `Heap.C89_gc_partial`, `Eval.C90_collections`, `Eval.C90_goes_on`, `Eval.C90_reuse`, `Eval.ro_step`, `Print.C91_read_accepts`, `Print.C91_read_accepts_only_partial`, `Print.C91_program_accepts`, `Print.C91_program_accepts_only_partial`, `Print.C91_ends`, `Print.C91_read_gives`, `Print.C91_quoted_bracket_violated`, `Print.C91_stray_array_bracket_violated`, `Print.C91_mixed_brackets_violated`, `Print.C91_rest_ignored_violated`, `Print.C91_blank_violated`, `Ctl.C92_paused_quiet_partial`, `Ctl.C92_requests_take_effect_partial`, `Ctl.C92_pause_collects_partial`, `Eval.C93_same_result`, `Eval.C93_common_data`, `Proc.C94_memory_given_back`, `Proc.C94_failed_create`, `Proc.C94_ids_distinct`, `Proc.C95_exit_ok`, `Proc.C95_exit_error`, `Proc.C95_at_most_one`, `Eval.C96_spawn_is_call_partial`, `Eval.C97_eval_program_partial`, `Custom.C98_destructor_once`, `Custom.C98_collect`, `Custom.C98_destruct`, `Custom.C98_create`, `Custom.C98_leak_violated`, `Lists.C99_setix`, `Lists.C99_array_to_list`, `Lists.C99_list_to_array_partial`, `Lists.C99_round_trip`, `Sched.C100_start`, `Sched.C100_poll`, `Sched.C100_returns_partial`, `Sched.C100_self`, `Sched.C100_reuse_violated`, `LoopExt.C101_for_scope_partial`, `LoopExt.C101_for_partial`, `LoopExt.C101_while_partial`, `LoopExt.C101_break_partial`, `LoopExt.C101_foreach_scope_partial`, `LoopExt.C101_foreach_elements`, `LoopExt.C101_foreach_partial`, `Stack.C102_stack`, `Stack.C102_max_partial`, `Print.C104_incremental`, `Print.C104_program`, `Print.C104_rest_not_ignored`, `Print.C104_stray_bracket_violated`, `Print.C104_last_value_violated`, `Rand.C105_period_partial`, `Rand.C105_short_violated`, `Rand.C105_initial_violated`, `Host.C106_load`, `Host.C106_define`, `Host.C106_define_refused`, `Host.C106_eval_defined`, `Eval.C107_step_partial`, `Eval.C107_history_partial`, `Eval.C107_ub_partial`, `Eval.C107_app_cont_violated`, `Jpg.C108_bits`, `Jpg.C108_word`, `Jpg.C108_values`, `Jpg.C108_file`, `Jpg.C108_factors`, `Jpg.C109_prepare`, `Jpg.C109_decomp_partial`, `Jpg.C110_colour`, `Matvec.C111_vproj`, `Matvec.C111_dot`, `Matvec.C111_list_to_matrix`, `Matvec.C111_safe_partial`, `Img.rounded_partial`, `Img.rounded_bound`, `Img.scale_partial`, `Img.enlarge_partial`, `Img.scale_fringe_violated`, `Img.turn_partial`, `Img.turn_any_partial`, `Img.Args.C114_accept`, `Img.Args.C114_reject_partial`, `Chat.C115_safe`, `Chat.C115_waits_partial`, `Chat.C115_send`, `Chat.C115_received_partial`, `Chat.C115_low_memory_violated`, `Post.C116_safe`, `Post.C116_accept`, `Post.C116_deliver`, `Post.C116_buffers`, `Post.C116_process`, `Post.C116_received_partial`, `Post.C116_dead_handler_violated`, `Env.C117_get`, `Env.C117_set`, `Env.C117_extend`, `Env.C117_restore_partial`, `Env.C117_snapshot_violated`, `Rts.C118_stack_is_a_block_partial`, `Rts.C118_set`, `Rts.C118_overflow_violated`, `Img.C119_arc_partial`, `Img.C119_no_holes`, `Bufs.C120_access`, `Bufs.C120_free`, `Bufs.C120_write`, `Bufs.C120_create`, `Kont.C121_others`, `Kont.C121_round_trip_partial`, `Kont.C121_own`, `Kont.C121_small_stack_violated`, `Eval.Builtin.C122_collections`, `Eval.Builtin.C122_untouched`, `Eval.Builtin.C123_assoc`, `Eval.Builtin.C123_acons`, `Eval.Builtin.C123_set_assoc`, `Eval.Builtin.C123_get_set_partial`, `Img.C124_draw_partial`, `Img.C124_shown`, `Gc.C125_program`, `Bufs.C126_access`, `Bufs.C126_bytes`, `Bufs.C126_release`, `Bufs.C126_lift`, `Custom.C127_create`, `Custom.C127_collect`, `Custom.C127_reading`, `Custom.C127_open`, `Flash.C128_room`, `Val.C129_number`, `Val.C129_is_nan_partial`, `Val.C129_is_inf_partial`, `Val.C129_constant_violated`, `Tok.C130_float_literal`, `Tok.C130_char`, `Tok.C130_named_char`, `Tok.C130_unknown_char`, `Tok.C130_exponent_violated`, `Mem.C132_maximum_used`, `Mem.C132_update`, `Mem.C132_between_violated`, `Flat.C133_inside`, `Flat.C133_all`, `Flat.C133_value`, `Flat.C133_same`, `Flat.C133_start`, `Flat.C133_finish`, `Jpg.C134_restart`, `Jpg.C134_restart_bytes`, `Jpg.C134_interval`, `Jpg.C134_restart_violated`, `Flat.C136_array`, `Flat.C136_nothing_lost_partial`, `Flat.C136_enough`, `Flat.C136_leak_violated`, `Flat.C136_collected`, `Flat.C137_image`, `Flat.C137_enough`, `Flat.C137_given_back`, `Quota.C138_turn`, `Quota.C138_set`, `Heap.C139_collection`, `Heap.C139_history`, `Img.Buffer.C140_made`, `Img.Buffer.C140_refused`, `Img.Buffer.C140_others`, `Sym.C141_sizes_partial`, `Sym.C141_table`, `Sym.C141_const_violated`, `Sym.C141_lost_violated`, `MathExt.C142_functions`, `MathExt.C142_convert`, `Env.C143_clear`, `Sched.Blocking.C144_not_lost_partial`, `Sched.Blocking.C144_once_partial`, `Sched.Blocking.C144_no_victim_partial`, `Sched.Blocking.C144_released_partial`.


## What is modelled

| module | code | not modelled |
|----|----|----|
| `Mem` | `lbm_memory.c` complete (status bitmap as a list, the packed bitmap in `Bitmap.lean`), reserve, GC request | mutex; unaligned pointers are identified with their word |
| `Heap` | `heap.c`: free list, allocation, list allocation, mark (explicit stack), mark by pointer reversal (`USE_GC_PTR_REV`), sweep, `gc()` of `eval_cps.c` | the C stack of the recursive calls in the pointer reversal marker; raw words on the stack that look like pointers |
| `Val` | encoders, decoders, tags, predicates of `heap.h`/`lbm_defines.h`, both builds | |
| `Flat` | `lbm_flat_value.c` complete, both builds | cyclic values (seen as infinite trees), overflow of the C `int` size counter |
| `Tok` | `lbm_channel.c` complete, `tokpar.c` complete, the token dispatch of `cont_read_next_token` | IEEE value of float literals |
| `Env` | `env.c`, `define`, `setq`/`setvar`, `undefine`, `lbm_define`, `lbm_undefine` over the cons heap | |
| `Defrag` | `lbm_defrag_mem.c` complete | wrap-around of the scan index (impossible) |
| `Sym` | `symrepr.c`, `extensions.c` complete, the read-time symbol lookup | |
| `Arith` | numeric part of `fundamental.c`: promotion, `+ - * / // mod`, comparison, conversion, bit operations | IEEE arithmetic (parameter) |
| `Eq` | `struct_eq`, `eq`, `not-eq`, `assoc`, `cossa` | C stack of the recursion |
| `Lists` | list functions of `heap.c`, `fundamental.c`, `eval_cps.c`: `length`, `ix`, `setix`, `take`, `drop`, `append`, `reverse`, `rotate`, `range`, list copy | retry after collection |
| `Sort` | `sort`, `merge` in continuation passing style | |
| `Ev` | event queue | |
| `Mbox` | mailboxes, `find_match`/`match`, `recv`, `recv-to`, `set-mailbox-size` | clauses that are not lists |
| `Sched` | process queues, scheduler loop, sleep, timeout, block, unblock, kill, atomic | what the running process computes |
| `Eval` | `evaluation_step`, special forms, continuations, application, `trap`, `call-cc`, `map`, `spawn`, `eval-program`, errors and unwinding | message passing, reader, collection and memory exhaustion, dynamic loading |
| `Buf` | `array_extensions.c`: typed access, `bufclear`, `bufcpy`, `bufset-bit`, `buflen`, `free`; f32 access with `float_to_u` and `u_to_float` on IEEE patterns, every operation rounded | |
| `QQ` | expansion of quasiquotation (`cont_qq_*`); evaluation of the expansion by `Eval` (`QQ/Link.lean`), `fundamental_append` | memory exhaustion |
| `Flash` | constant heap of `heap.c`, `move-to-flash` | |
| `Print` | `print.c`, the reader continuations of `eval_cps.c` | incremental reading, `` ` `` in the reader (expansion is `QQ`), memory exhaustion |
| `Str` | `string_extensions.c`; `strtol`, `snprintf` of integers and texts, `strstr`, `strspn` and other C library functions by their specification | `str-from-n` with a format, floating point text; `toupper` of bytes from 128 |
| `Gc` | the allocating functions of the evaluator in `eval_cps.c` with their roots, `mark_context`, `handle_event_define` | several contexts, exhaustion of memory; the marking itself is `Heap` |
| `Img` | `display_extensions.c`: image buffers, pixels of the six formats, `img-clear`, lines, rectangles, circles, triangles, `img-blit`, text, gradients | arcs, rounded outlines, dotted circles, the float arithmetic of rotation and scaling, the display driver, JPEG |
| `Set` | `set_extensions.c`: `member`, `set-insert`, `set-union` over the heap of `Heap` and the equality of `Eq` | the repetition after garbage collection |
| `Ctl` | the loop of `lbm_run_eval` and the functions with which other threads pause, continue, reset and kill it | what the evaluator computes, more than one other thread, weak memory |
| `Proc` | `lbm_create_ctx_parent`, `finish_ctx`, `ok_ctx`, `error_ctx_base`, `kill`, delivery of messages by id, resizing of mailboxes, over the memory of `Mem` | what a process evaluates, the three queues (see `Sched`), the contents of the mailbox array (see `Mbox`) |
| `Verif/Custom` | values of custom types: `lbm_custom_type_create`, `lbm_custom_type_destroy`, `custom-destruct`, the releases of the sweep, allocation of vectors (C98) | the allocator (see `Verif/Mem`), what destructors do, numbers in vectors and matrices |
| `Verif/Lists/Arrays.lean`, `ArraysProps.lean` | arrays of values: `mkarray`, `ix`, `setix`, `array-to-list`, `list-to-array` (C99) | the allocator of the blocks (a parameter), indices that are not integers |
| `Verif/Sched/Wait.lean`, `WaitProps.lean` | `wait`: `apply_wait`, `cont_wait`, `context_exists` (C100) | the stack of the waiting context |
| `Verif/LoopExt/*` | `loop_extensions.c` (C101) | the collection that the evaluator does when an expansion is `merror` |
| `Verif/Stack/*` | `stack.c`, `stack_reserve`, `get_stack_ptr`, `pop_stack_ptr` (C102) | allocation of the block, `lbm_stack_free` |
| `Verif/Prof/*` | `lbm_prof.c` (C103) | the mutex (a sample is one step), wrapping of the counters |
| `Verif/Print/Incr*` | `read-eval-program`: `apply_read_base`, `cont_read_eval_continue`, case 4 of `read_finish`, `cont_read_done` (C104) | the evaluator (a parameter), constant-heap flags, row numbers, streams that are still being written |
| `Verif/Rand/*` | `random_extensions.c` (C105) | float seeds are converted by an unspecified operation |
| `Verif/Host/*` | the loading functions of `lbm_c_interop.c` (C106) | process creation (C94), that the evaluator must be paused, `lbm_share_array`, `lbm_share_const_array`, `lbm_flatten_env` |
| `Verif/Eval/Frames*.lean` | the shape of the stack in the evaluator model (C107) | what the evaluator model does not have: message passing, blocking, the reader, moves to flash, `sort` and `merge` |
| `Verif/Jpg/*.lean` | the JPEG decoder: `src/extensions/tjpgd.c` in the configuration of `tjpgdcnf.h` (scale 0), `jpg_input_func`, `ext_disp_render_jpg` (C108-C110) | `block_idct` (a parameter), the scaled output, the output function of the display (`disp_render_image` is a pointer of the host), the checks of the arguments; progressive pictures are refused by the code |
| `Verif/Matvec/*.lean` | vectors and matrices: `src/extensions/matvec_extensions.c` (C111) | the custom value around the numbers (C98), floating point arithmetic (a parameter), cyclic lists |
| Chat | send, recv, recv-to and set-mailbox-size of many processes on the scheduler of Sched with the mailboxes of Mbox | what processes compute, times of recv-to, memory (a parameter) |
| Post | process_events, get_event_value and the functions of the host that post events, on top of Ev and Chat | unflattening (Flat), definitions (Env, Gc), the termination of a context that is unblocked with an error |
| Rts | ext_set_gc_stack_size on the allocator; the address that lbm_push writes | other runtime extensions, which only return numbers (env-get and env-set are in Env) |
| Img (arcs) | thin_arc and its helpers, with the results of the floating-point computations as parameters | generic_arc and what it calls, sectors and segments |
| Bufs | lbm_heap_allocate_array, lbm_heap_explicit_free_array, the sweep of byte arrays, bounds-checked access, size test of eq, reading by unflatten | constant arrays; the packing of bytes in words (C45); cells themselves (C07) |
| Kont | eval_callcc and the application of continuations as copies in the memory, lbm_stack_allocate, lbm_push, lbm_stack_drop | the array header and cell of a continuation; what the evaluator does with the words (Eval has that, C64) |
| Eval (Machine, Builtin, AssocProps, ListFns, TakeFn) | list functions of fundamental.c: cons, car, cdr, list, append, set-car, set-cdr, setix, ix, assoc, acons, setassoc, cossa, length, take, drop, eq, not, list?; struct_eq on cells; lbm_env_set, lbm_env_set_functional | byte arrays, lisp arrays and constant cells in these functions; numbers are given as a parameter |
| Img (ColorObj) | ext_color_set, ext_color_get, ext_color_setpre, ext_color_getpre | float arguments, the custom value around the colour (Custom has that) |
| Eval (LimitProps) | call_fundamental with the second attempt, the list functions with a bounded number of free cells | append goes on after a failed cons in the code (it fails again each time), arrays and lbm_memory |
| Gc (Builtin) | the list functions of C122 on a heap with a collector: cells already taken by a call are not free, everything else that is not reachable may be | as Gc and C122 |
| Gc (Retry) | call_fundamental with the second attempt, within the evaluator with the collector | a second attempt that fails too, a result out_of_memory of the function itself |
| Bufs.Share | lbm_lift_array, lbm_share_array | constant arrays (Flash.Share); the contents that image_buffer_lift writes |
| Custom.Chan | create_string_channel, lbm_create_string_char_channel, apply_read_base up to the first character | lift_char_channel; explicit freeing of a string by the host while it is read |
| Flash.Share | lbm_share_const_array | the bytes of the host |
| Val.TypeOf | type-of, is-nan, is-inf with one argument | the decoding of boxed floats (C11) |
| Tok.FloatLit | tok_double, tok_char, special_chars through cont_read_next_token | strtod |
| Heap.SetProps | lbm_set_car, lbm_set_cdr, lbm_set_car_and_cdr | |
| Mem.Peak | lbm_memory_maximum_used, lbm_memory_update_min_free over histories | |
| Flat.Host | lbm_start_flatten, lbm_finish_flatten, f_sym, sequences of f_* calls | wrap-around of buf_pos + num_bytes for lengths near the word size |
| Img.Render | ext_disp_render | the drivers themselves |
| Flat.Memory | flatten_value with its allocations, apply_flatten | the collector (a parameter), heap cells are counted only |
| Flat.EnvImage | lbm_flatten_env, the sweep of its array | that nothing refers to the array (a collection in the middle of the call does not happen: the evaluator is paused) |
| Quota | the inner loop of lbm_run_eval with the quota of steps, set-eval-quota | what a step computes (any effect on the queue), atomic blocks (C34), requests of the host (C92) |
| Heap.Stats | the counters of the collector that lbm-heap-state reports | wrap of the counters at 2^32 |
| Img.Buffer | img-buffer with both kinds of memory, img-buffer?, img-dims | img-dims without arguments, lack of cells in img-dims |
| Sym.Sizes | the counters of the symbol table and the functions that report them | counters that wrap |
| Arith.MathExt | the mathematical extensions, deg2rad, rad2deg, the checks of arguments | the values of the C functions; is-nan and is-inf are in Val |
| Env.Clear | lbm_clear_env | calls while the evaluator runs |
| Sched.Blocking | lbm_block_ctx_from_extension, lbm_undo_block_ctx_from_extension, lbm_unblock_ctx_r, the end of an extension call in application | the queues (one process is followed), reset of the evaluator |


## Properties

For each property: the plan (what is modelled and how it is proved), the status, and the remarks on what is missing. The exact names of the theorems are in `MANIFEST.json`; all of them are in the `Props.lean` of the module unless another file is named.

| id | title | plan | status | remarks |
|----|----|----|----|----|
| C01 | Allocated word blocks never overlap | `lbm_memory.c` as status list + offset + counter. Ghost list of live blocks; representation invariant (bitmap = encoding of blocks, scan offset at a block boundary or block end), preserved by every op, lifted over histories. (Mem) | proved | All histories of valid operations and of rejected frees that do not point strictly inside a live block. |
| C02 | Allocation succeeds whenever the memory admits it | Same model; scan invariant: the circular scan visits every maximal run from its start. (Mem) | proved | Valid histories. The third theorem shows that a rejected free of a free word breaks completeness. |
| C03 | Free releases exactly one block and the free counter is exact | Same model; exact post-state of `lbm_memory_free`, counter equation in the invariant. (Mem) | proved |  |
| C04 | Shrink keeps the prefix and releases the tail | Same model; exact post-state of `lbm_memory_shrink`. (Mem) | proved |  |
| C05 | A rejected free is harmless | Same model; believed false (rejected free moves the scan offset into a live block): concrete witness and a partial theorem. (Mem) | partial | The code violates the full property: freeing a pointer strictly inside a live block makes later allocations overlap it. Proved for all other rejected pointers. |
| C06 | longest_free reports what can be allocated | `lbm_memory_longest_free`; equals max run spec minus reserve, with the unsigned wrap modelled. (Mem) | partial | Exact when the reserve is not exhausted; the code wraps around otherwise (witness). |
| C07 | Garbage collection preserves all reachable data | Cons heap as list of cells, values as an inductive type, explicit-stack marker; invariant "marked set + stack closed under edges". (Heap) | partial | Full (total correctness) when the GC stack is large enough for the heap, and for any stack size when the heap holds no lisp arrays. Violated by the code when the stack runs full at a lisp array, for an empty lisp array, and for an environment in the constant heap (witnesses). |
| C08 | Garbage collection reclaims all unreachable cells | Sweep fold: free list = unmarked cells, accounting; with C07 unmarked = unreachable. (Heap) | partial | Full under the same conditions as C07 and when no unreachable pair has a type symbol in its cdr; for such a pair the code releases memory the pair does not own (witness). |
| C09 | Garbage collection terminates | Fuel-free measure for cons heaps; non-termination witness for an array that contains itself. (Heap) | partial | Terminates for every heap whose lisp arrays are not nested in themselves without a pair in between; the code loops for an array that contains itself (witness). |
| C10 | Cell allocation is fresh and fails only when the heap is full | Free list invariant: acyclic, exactly the recovered cells, counter equals. (Heap) | proved | All histories of allocations, list allocations, writes to allocated cells and collections. |
| C11 | Unboxed values survive encoding | Encoders on `BitVec 32/64`, proved by bit-vector lemmas over all payloads. (Val) | proved | Both builds. Word-level model of the encoders and decoders; float and double are bit patterns. |
| C12 | Type tags are unambiguous and pointers round-trip | Same; tag masks. (Val) | proved | Both builds. |
| C13 | Flatten/unflatten round trip | Flattener and unflattener over bytes; round trip by structural induction with arbitrary byte suffix. (Flat) | partial | Proved for every serialisable value within the depth limit, both builds; false for empty arrays (witnesses). |
| C14 | Flat size is exact | Size function against output length, structural induction. (Flat) | proved | Size arithmetic in C int is modelled without overflow. |
| C15 | Unflatten stays inside its buffer | Reader with explicit bounds outcome; array and symbol cases violate: witnesses, partial for the rest. (Flat) | partial | False for arbitrary buffers (four witnesses); proved for buffers whose declared lengths stay inside them. |
| C16 | A buffered character channel is a bounded FIFO | Ring buffer refined to a bounded list queue over all operation sequences. (Tok) | partial | Proved for peeks at most 256 ahead; a farther peek wraps around the ring, and columns are counted differently on the first line (witnesses). |
| C17 | Integer literals denote their value | `tok_integer` over a character stream; value equals positional value mod 2^64. (Tok) | partial | Hexadecimal literals of any length and decimal literals of up to 128 characters; longer decimal literals overflow a buffer (C53_overflow). |
| C18 | String literals denote the escaped text | `tok_string`; decode of escaped text. (Tok) | partial | Decoding proved for every literal of up to 256 characters. Unterminated literals are accepted at the end of the input in exactly two cases (witnesses). Through the buffered channel a literal of more than 254 characters can never be read. |
| C19 | Tokenising is independent of how the input is chunked | Tokenizer over (available prefix, closed flag): result other than "need more" stable under extension. (Tok) | proved | Every interleaving of writes, close and reader steps; the channel as an ideal stream, with C19_ring_dispatch relating the ring buffer to it for one dispatch. |
| C20 | Environments behave as maps | Environment as alist in order, in-place update; refinement to function update; global buckets. (Env) | partial | Proved over the cons heap for all histories of define, lbm_define with memory available, assignment to bound variables, undefine, garbage collection and other heap activity. lbm_define in a full heap loses a bucket (C20_lbm_define_violated); failed assignments are C21. |
| C21 | A failed assignment does not disturb other variables | `perform_setvar` with the unchecked `NOT_FOUND` result: refuted by witness; partial for bound variables. (Env) | partial | The code violates it: a failed assignment makes every variable of the same bucket unbound. Exact effect proved. |
| C22 | Undefine removes exactly one key | `lbm_env_drop_binding`. (Env) | proved | All histories without failed assignments; after one, undefine can fail to remove a binding (witness). |
| C23 | Defragmentable allocations are disjoint and survive compaction | Defrag memory words as list; layout invariant; contents of every live block preserved. (Defrag) | partial | Proved for all histories while the pool is live (pool at an address not below its own size in words). Violated when the pool itself is garbage collected while its arrays are held: arrays do not keep the pool alive (witness). |
| C24 | Compaction makes all free space usable | Completeness of allocation after compaction, at the level of the same model. (Defrag) | proved | Iff, for all histories; the search itself inspects only the first hole (witness) and relies on the compaction. |
| C25 | Symbol interning is injective and stable | Symbol table as list with next id; invariants over all histories. (Sym) | proved | At most 65536 extensions, names are C strings. |
| C26 | Integer arithmetic is exact modulo the promoted width | Numeric tower on `BitVec`; promotion tables for both builds; results mod 2^width. (Arith) | partial | Two arguments of any integer types, and any number of arguments of which the first has the largest type: exact modulo the width (for a wrapping compiler, or without signed overflow). Sums of mixed types depend on the order (witness), signed overflow is undefined behaviour, and a sum goes on with an error symbol when the heap is full (witnesses). |
| C27 | Division and modulo are exact | `div2`/`mod2`; 64-bit operand truncation refuted by witness, partial for the other types. (Arith) | partial | Zero divisors for all types. Quotients and remainders with the conditions stated in the theorem; the violations show that each condition is needed: 64-bit dividends are cut to 32 bits, a 64-bit u divisor that is a multiple of 2^32 counts as zero, INT_MIN / -1 is undefined. |
| C28 | Numeric comparison agrees with the order of the numbers | `compare_num` and n-ary folds; n-ary `<` refuted by witness, partial for the binary forms. (Arith) | partial | <=, >=, = and != with any number of arguments, < and > with two, for operands representable in the larger type. With three or more arguments < and > test whether SOME argument is greater (witness); negative numbers against unsigned ones compare wrongly (witness). |
| C29 | Structural equality is an equivalence | `struct_eq` on finite trees. (Eq) | partial | Symmetric and transitive on all finite values; reflexive on values without NaN and without opaque objects (channels, custom objects), which are not equal to themselves (witnesses). On values without floats equality is identity of the finite trees. |
| C30 | List operations compute the documented lists | List functions on heap lists/pure lists. (Eval, Lists) | partial | length, ix, drop, take, reverse, append, setix for all lists in RAM and constant memory; range when the values fit an integer value; rotate for lists of two or more elements. rotate of a one-element list returns nil, range wraps at 28 bits on 32-bit builds and overflows for large spans (witnesses). |
| C31 | sort and merge return an ordered permutation | Bottom-up merge sort as the continuation performs it. (Sort) | proved | All lists and comparators; evaluating the comparator may do anything to the heap except write to the cells of the copy being sorted. Stable for <=; with < equal elements are swapped (theorem). The parameters of the comparator are assigned in its captured environment (witness). |
| C32 | A context is always in exactly one place | Queues as pointer structures; representation to abstract lists; partition invariant over all ops. (Sched) | proved | For every sequence of the operations on queues listed in Verif.Sched.Op; operations are atomic (they hold qmutex or run on the evaluator thread). |
| C33 | The scheduler is fair | Round-robin queue with arbitrary per-slice behaviour. (Sched) | partial | Proved for processes that nobody kills; a process that others keep killing never runs (proved: for any number of rounds). |
| C34 | A process that fails inside an atomic block does not stop the others | Scheduler state with the atomic flag; refuted by witness (state stuck forever), partial for clean exits. (Sched) | partial | The code violates it: a context that ends in an atomic block stops all scheduling until a reset (proved for every continuation of the execution). Proved for executions without such an end. |
| C35 | Mailboxes deliver messages in order and keep the newest | Mailbox functions on bounded arrays refine a bounded queue; receive spec. (Mbox) | partial | Sending and receiving are exact whenever the heap has room for the bindings; without memory the code blocks although a message matches (proved), so the property as stated is false in that case. |
| C36 | Changing the mailbox size is safe | `lbm_mailbox_change_size`; refuted for sizes below the number of pending messages; partial otherwise. (Mbox) | partial | Proved for sizes that hold the pending messages; for every smaller size the code writes outside of the new mailbox (proved). |
| C37 | Sleeping processes wake when their time has passed | `wake_up_ctxs_nm` on 32-bit timestamps. (Sched) | partial | Exact wake-up when the clock is as wide as a word, except for one microsecond after the clock wraps; on 64-bit builds all sleepers wake when the 32-bit clock wraps (both proved). |
| C38 | The event queue is a bounded FIFO | Event ring buffer with full flag refines a bounded queue. (Ev) | proved | For every queue created for at least one event (a queue of size 0 cannot be allocated). |
| C39 | The stack machine implements the language semantics | Evaluator as a CEK machine transcribed from `evaluation_step` and the `cont_*` functions; big-step relation as specification; simulation by induction on derivations. (Eval) | partial | Proved against a big-step semantics (Verif.Eval.Spec) for all programs, for values, errors and whole programs, with unlimited stack and for every stack that is large enough. Missing: failing guards, loop, call-cc, errors that leave atomic blocks, malformed forms (where the code disagrees with the semantics, see C41, C42, C62-C64), message passing. |
| C40 | Tail calls run in constant stack | Same machine: a tail call leaves the stack as it was (identical, not only as high). (Eval) | partial | The stack is identical, not only as high; any number of iterations runs in a stack of fixed size. Missing: the features missing in C39. |
| C41 | trap catches every error of its expression | Same machine with the error path: unwinding to the nearest handler. (Eval) | partial | Proved for all expressions of the semantics and for every machine state whose stack words above the handler are written. The code violates it in five ways (witnesses). |
| C42 | match evaluates guards and bodies in the right scope | `cont_match`/`cont_match_guard`: scope refuted by witness for guards, partial without. (Eval) | partial | Proved for cases up to and after the first failing guard, the latter if the evaluation of the scrutinee ends in the environment of the match; otherwise, and after a second failing guard, the code uses an environment left over by another evaluation (witnesses). |
| C43 | receive binds only the variables of the selected pattern | `find_match`: refuted by witness (stray bindings). (Mbox) | partial | Variables of the selected pattern and variables in no pattern of the recv are right; variables of patterns that failed half way leak into the selected body (proved witness). |
| C44 | Quasiquotation builds the template | `cont_qq_expand*` as the recursive expansion; evaluation of the expansion equals instantiation. (QQ) | partial | Proved for all templates and for every evaluator that satisfies four laws (quote, self-evaluating symbols, list, append), with effects in order; and end to end, from the template that was read to the value computed by the stack machine, for unquoted expressions without effects. Violated for error symbols: append fails if its result is one. Missing: memory exhaustion (append can leave an error symbol as code); templates in constant memory. |
| C45 | Typed buffer accesses stay in bounds and round-trip | `buffer_append_bytes`/`buffer_get_uint`, 32-bit index arithmetic; OOB refuted by witness for negative indices, partial otherwise. (Buf) | partial | All integer element types, both byte orders, both builds. The code violates it: on 32-bit builds an index of -1 passes the bounds test, the index is reduced modulo 2^32, and i32 elements are truncated to 28 bits (witnesses). f32 elements: float_to_u and u_to_float are modelled on IEEE patterns with rounding; exact for all finite floats of at least 1.5e-38; violated for smaller ones (stored as 0), -0.0, infinities (undefined behaviour), and for subnormal and NaN patterns that are read (witnesses). |
| C46 | Bulk buffer operations stay in bounds | Bulk operations as list updates with explicit bounds outcome. (Buf) | partial | The code violates it for overlapping copies within one buffer (memcpy) and for bufclear on buffers of 2^32 bytes or more (witnesses); proved otherwise for all integer arguments. |
| C47 | The constant heap is written once and never overlaps | Const heap cursor; disjointness and write-once over all histories. (Flash) | partial | Disjointness for all sequences of operations whose sizes do not wrap around, even with failing writes; at most one write per word in a working memory, for callers that write their cells once. The code violates it when a write fails (the words before it are written again) and when a size wraps around a machine word (witnesses). |
| C48 | Moving a value to flash preserves it | Move-to-flash as a recursive function over heap values. (Flash) | partial | For all finite data of pairs, boxed numbers, byte arrays and non-empty arrays. The code violates it for empty arrays (undefined behaviour), for defragmentable memory (the constant list refers to RAM) and copies constant lists instead of leaving them in place (witnesses). The flash may become full; then it is proved that all variables still hold the same data. |
| C49 | Printing and reading are inverse | `print.c` with its explicit stack writes the text of the tree; the reader continuations over the tokenizer read it back into fresh cells; the two meet at the text. (Print) | partial | Round trip through the models of the printer, tokenizer, reader, symbol table and structural equality, for all values of integers, symbols, strings, byte arrays and lists of any size, any buffer and any print stack: whenever printing reports success. The code violates it for symbols whose names are not symbol texts, strings of more than 256 characters, arrays larger than the reader's memory, arrays that begin with an unprintable byte (reads before the array), and lisp arrays (witnesses). Missing: floating point numbers; memory exhaustion and garbage collection while reading. |
| C50 | Flat values are portable between builds | Same model as C13, writer and reader on different builds. (Flat) | proved | With memory available; running out of memory while boxing is silent (witness). |
| C51 | A string channel delivers its text | String channel as text and position. (Tok) | partial | Reads at the end of the text report success with a zero character (witness); everything else proved. |
| C52 | Symbols are read whole and case-insensitively | `tok_symbol` over the character stream. (Tok) | proved |  |
| C53 | No input makes the tokenizer write outside its buffers | Every write of the tokenizers to `tokpar_sym_str` and `fbuf` has a bounds outcome. (Tok) | partial | False: a decimal number of more than 128 digits overflows fbuf. Proved for every other input. |
| C54 | White space and comments only separate tokens | Loop of `lbm_clean_whitespace`, induction on the blanks. (Tok) | proved |  |
| C55 | Extensions run the function registered last | Extension table next to the symbol table; all histories. (Sym) | partial | Proved for all histories; clearing a symbol that is not an extension clears an unrelated extension (witness). |
| C56 | Applying a symbol runs the function it stands for | Ranges of symbol ids and the dispatch tables of the evaluator. (Sym) | partial | Proved for symbols that have a name; violated for symbols made by u2sym, in every state. |
| C57 | Integer conversions keep the number modulo the width | `lbm_dec_as_*` and the `to-*` functions on bit vectors. (Arith) | partial | All integers and target types; what is not a number converts to 0 without an error (witness). |
| C58 | Bit operations act bit by bit and shifts multiply and divide | Shift and bitwise functions on bit vectors, shifts by too much are undefined behaviour. (Arith) | partial | All types but bytes (a type error) and all amounts from 0 to the machine width; other amounts are undefined behaviour (witness). |
| C59 | assoc and cossa find the first equal entry | `assoc_lookup`, `cossa_lookup` over heap lists, with C29. (Eq) | proved | A stored value that is the symbol no_match itself is reported as nil, as the theorem says. |
| C60 | recv-to waits no longer than its timeout | `recv-to` with the blocked states and the timer. (Mbox) | partial | After the timeout it never blocks again; but any message that does not match restarts the wait with a duration computed from the encoded timeout word (proved for all such mailboxes). |
| C61 | Unblocking wakes exactly the blocked context | Queue operations of C32; exact effect of unblocking. (Sched) | proved | All three ways to unblock share this part; what they do to the result register is not part of the property. |
| C62 | loop evaluates its condition and body in the scope of its bindings | `Eval/Tidy.lean`: evaluations that leave their environment in the register (`Tidy`, a part of the semantics); the machine on a loop made of these by induction on the iterations; witnesses for the others. (Eval) | partial | Proved for loops whose condition and body end in the environment of the loop (atoms, calls of built-in functions, if, cond, progn, and, or, setq of these). The code violates it for others: condition and body are evaluated in the environment that the last evaluation left over, for example that of a closure called at the end of the body (witnesses). |
| C63 | var binds in the progn it is written in | Evaluator model; witness, positive part in C39. (Eval) | partial | Proved (as part of C39) for var at the top level of a progn, or in an if, cond or macro there; var in the tail position of a let or a function body uses the environment of the enclosing progn (witnesses). |
| C64 | A continuation resumes the evaluation it captured | Evaluator model; stack copied to an array and back. (Eval) | partial | Capture and resumption proved for all stacks; the argument is evaluated in the environment left over in the register (witness); a context with a smaller stack is C121, where the code violates it. |
| C65 | String functions stay inside the strings | String model with out-of-bounds access as a distinct outcome; totality of every function; witnesses. (Str) | partial | Proved for arbitrary argument lists of str-len, str-part, str-find, letter case, to-str, str-from-n and, except for one count, str-replicate; for arrays that contain a zero also for the others. The code violates it for arrays without a zero, the empty array, the count 2^32-1 and, on 32-bit builds, for joined strings of 4 GiB or more (witnesses). Missing: str-from-n with a format, which is passed to snprintf. |
| C66 | Length, parts, joining, letter case, replication | String model; equation for every function, for every allocator. (Str) | proved | For every behaviour of the allocator. str-join needs a delimiter that contains a zero and a result that is smaller than 2^w (C65). |
| C67 | str-split gives the pieces of the text | String model; loop invariants, relational specification with uniqueness. (Str) | proved | For arrays of at most 2^30 bytes that contain a zero (C65); the specification determines the list. |
| C68 | str-replace replaces the occurrences from left to right | String model; relational specification with uniqueness. (Str) | proved | For arrays that contain a zero (C65) and results smaller than 2^w; the specification determines the text. |
| C69 | str-cmp is the lexicographic comparison | String model; induction on the strings. (Str) | proved | For arrays that contain a zero (C65). |
| C70 | str-find finds the occurrence that the options select | String model; search loops as the list of hits. (Str) | partial | Exact result for all options; the number of the occurrence is reduced modulo 2^32. The code violates the last sentence: an empty pattern with 'left is found behind the terminator (witness). |
| C71 | Numbers survive as text | String model with strtol; induction on the digits; witnesses. (Str) | partial | Proved for integers between -2^31 and 2^31-1, all bases. The code violates it for other integers: str-from-n prints them modulo 2^32, str-to-i saturates on 32-bit builds and wraps on 64-bit builds (witnesses). Floating point numbers and formats are not modelled. |
| C72 | to-str joins the printed arguments | String model with the 300-byte buffer; loop invariant; witnesses. (Str) | partial | Proved for at least one argument with nonempty texts; the text of a value is a parameter (C49). The code violates it without arguments (a byte of uninitialised memory) and for empty texts at the beginning (witnesses). |
| C73 | Garbage collection is invisible to evaluation | Second evaluator in which a parameter decides, at every allocation and before every step, what is left of unreachable cells and which free cell is taken; simulation of the first evaluator by a partial bijection between cells, for every function of the evaluator. (Gc) | proved | For the evaluator of Verif.Eval (one context, no exhaustion of memory), executions without undefined behaviour. The fundamental operations are a parameter with the hypothesis that they are insensitive to the collector (PSim); builtin_sim shows it for the list functions of C122, gc_invisible_lists is the theorem without the hypothesis for these. |
| C74 | Values defined by the host survive collection | Define with a collector whose roots do not include the value; witness; partial theorem from the simulation of C73. (Gc) | partial | The code violates it: the value is not among the roots and is freed (witness). Proved for first definitions of numbers, symbols and of values that are referred to elsewhere. |
| C75 | Drawing stays inside the array of the image | Image as a list of bytes with checked access and checked signed arithmetic; a call is an operation, sequences by induction; witnesses for forged arrays and overflow. (Img) | partial | All sequences of calls of img-setpix, img-clear, img-line, img-rectangle, img-circle, img-triangle and img-blit with numbers up to 8000 on images made by img-buffer, or on any array that is large enough. The code violates it for arrays made otherwise (the size is rounded down and computed modulo 2^32) and for large numbers (signed overflow), witnesses. Missing: arcs (and rounded outlines and dotted circles, which use them) and text. |
| C76 | Setting a pixel sets that pixel and no other | Image as a string of bits in which every pixel owns its bits; case analysis over formats and positions in a byte; witnesses. (Img) | partial | For all images and formats. The code violates it: rgb565 loses red, colour numbers that are too large change a neighbouring pixel, coordinates are reduced modulo 65536 (witnesses). |
| C77 | Clearing sets all pixels | As C76, induction over the loops; the exact quarter for `rgb565`. (Img) | partial | All formats but rgb565, of which the code clears a quarter only (proved exactly, witness); in black and white images colours from 2 on are treated differently from img-setpix (witness). |
| C78 | Filled rectangles and triangles cover exactly their area | Induction over rows and columns; the three orientation tests are equivalent to being a weighted mean of the corners. (Img) | partial | Exact, for corners of triangles up to 16000 (beyond, products overflow, see C75) and rectangles that do not reach column or row 65536, where coordinates wrap around (witness). |
| C79 | A line runs from one end to the other without gaps | Invariant of the error term of the loop; the path is a list, the drawing folds the pen over it; exact criterion for the missing end. (Img) | partial | The code violates it: exactly the lines with |dy| < |dx| <= 2|dy| miss their second end (proved, witness). Everything else proved for ends up to 2^27. |
| C80 | img-blit copies the overlap | Induction over rows and columns, decoding followed by encoding is the identity on the bits of a pixel. (Img) | partial | Source and destination are different arrays. The code violates it for rgb565, where red is lost (witness). Rotation and scaling: C113. |
| C81 | Circles are round and closed | Invariant of the decision variable; the rows of a disk by their ends; witnesses. (Img) | partial | The exact set of pixels for all radii up to 32767, and for thick circles up to radius 2001. The code violates it: the outline leaves out the diagonals, so that it has holes, filled circles of radius up to 4 and thick ones are centred between pixels (witnesses), and every thick circle with a radius above 2001 is hollow (circle_thick_violated). Missing: dotted circles. |
| C82 | The outline of a rectangle is its border | Composition of the four sides; witness. (Img) | partial | The exact set of pixels for all sizes. The code violates it: the outline is one column and one row larger than the filled rectangle, and its last corner is missing (witness). |
| C83 | Text sets the pixels of its characters | Loops over the pixels of a character and the characters of a string; composition of painted sets; witnesses. (Img) | partial | All fonts with 1 or 2 bits per pixel whose characters lie in the array, all strings of up to 2^21 characters. The code violates the rest: arrays of 254 bytes that are no fonts are read behind their end or lead to a division by zero (witnesses). |
| C84 | Gradients run from one colour to the other | Index arithmetic of the cosine table, monotonicity of the mixed parts; witnesses. (Img) | partial | Positions up to 6000000. The code violates the rest: a width of 0 is a division by zero, mirrored precalculated gradients differ from the gradient, and a gradient does not repeat itself before its offset (witnesses). |
| C85 | Sets have no element twice | The loops of set_extensions.c over cells and the free list. Invariants: the copied prefix is a list of the trees of the input, cells that are in use are not changed. Equality is that of C29; its fuel is a bound for the trees of all elements. (Set) | partial | The code violates it for values that are not equal to themselves (NaN, channels): they are not found and inserted again (witness). Missing: how many cells set-union needs is bounded by n(n+m), not given exactly. |
| C86 | Evaluation makes no dangling references | Machine of C39. Invariant relative to a set N of cells: no register, stack word, global variable, captured stack or cell outside of N refers to N or to an unallocated cell. Each evaluator function keeps it and does not change N; induction over steps. N is the set of the unreachable cells. (Eval) | proved | The condition on the built-in functions (Local) is proved for the functions on lists of C122; for others it is a hypothesis. |
| C87 | A program cannot reach what it is not given | Same invariant as C86. (Eval) | proved | The condition on the built-in functions (Local) is proved for the functions on lists of C122; for others it is a hypothesis. |
| C88 | map applies its function to each element, in order | Inversion of the derivation of the call, induction over the derivation of the loop. The cells of the result list are not reachable for the calls (C87), nor are the cells of the call expression if the thing called is a function; so the calls leave them alone. (Eval) | proved | For closures and built-in functions. For other things that can be applied, such as quote or macros, the calls of map are visible in the result and change it (witness). |
| C89 | Collection by pointer reversal | Model of the loops of `lbm_gc_mark_phase_nm` step by step, with the flags and the calls for array elements as a list. Lemma by induction on the number of unmarked cells: from the first loop at a value, the machine comes to the second loop at the same value with the same predecessor, with all cells restored. Then as C07 and C08. (Heap) | partial | The code violates it for channels that depend on a buffer in the heap and for saved continuations (witnesses); proved without them. The C stack that the recursive calls for nested arrays need is not modelled. |
| C90 | Results do not depend on when memory is collected or on where cells are | Two machines are related by a one to one correspondence between cells; corresponding cells have corresponding fields. Every step of the machine, every special form, continuation and store operation keeps the relation, with more cells in the correspondence. A collection is a state that is related to the one before it, so the executions with and without collections are related by induction over the execution. (Eval) | proved | Collections may move what is in use and overwrite everything else between any two steps. The condition on the built-in functions (Blind) is proved for the functions on lists and numbers of C122; for others it is a hypothesis. In C90_reuse the counter of the model may go down, and the interrupted program is assumed to end. That the collector keeps what is in use is C07 and C73; running out of memory is not modelled. |
| C91 | Reading accepts expressions and nothing else | A grammar over token sequences (`Grammar.lean`, independent of the reader) as mutual inductive relations, in a strict and a loose version. Completeness by induction over the derivation, soundness and termination by strong induction over the number of characters left, with the reader's continuation stack as parameter; unambiguity by induction over the derivation. Violations are computed by the kernel. (Print) | partial | Every well-formed text is read as what it says, reading ends, and the grammar is unambiguous. What else is accepted is described exactly by the loose grammar: the reader takes any closing bracket for any opening one, takes stray brackets and dots for symbols in some places, and ignores what follows an extra closing bracket of a program. Not covered: backquote, incremental reading, memory exhaustion; undefined behaviour of the tokenizer is C53. |
| C92 | Pausing the evaluator | Transition system of two threads with one access to a shared variable per step (`Ctl/Model.lean`): the evaluator's loop and the five functions that other threads call. Safety by an inductive invariant over all interleavings, liveness by a ranking function; violations are executions computed by the kernel. (Ctl) | partial | All interleavings of one other thread with the evaluator, under the condition that no request is written between the moment at which the evaluator has read another request and the moment at which it has carried it out. The code violates it otherwise, also for a thread that waits for the effect of each request: it can report that it is paused and go on with evaluation for ever (witness). After a reset the evaluator is not paused (witness), and a second request to pause cancels the garbage collection of the first (witness). Sequential consistency is assumed. |
| C93 | Processes do not influence each other except through data that one of them changes | Pool of contexts over one store (`Eval/Pool.lean`); the steps of one process among those of the others are steps of its machine with interruptions that keep what it can use, so the theorem for collections (C90) applies. The condition on the initial state by an invariant that assigns each new cell to the process that made it, with `fine_step` of C87. (Eval) | proved | Model of the contexts with one store; after any step any context may go on, unless another one is in an atomic block. The first theorem is for all schedules, with collections and new processes in between; the second gives a condition on the initial state (there without collections, new processes and captured continuations). The third shows that the condition is needed. Messages and blocking operations are not part of this model (see C35, C36, C60). |
| C94 | Memory and ids of processes | Contexts with their blocks over the memory of `Mem` (`Proc/Model.lean`): invariant that the blocks of all contexts and the other blocks are what the allocator has given out. (Proc) | partial | Contexts over the model of the word memory of C01-C06, all histories. The blocks are disjoint and all words are accounted for, also after failed creations. Ids of live processes differ, but ids are used again: a message to a process that has ended can reach another one. |
| C95 | spawn-trap: the parent learns how its child ended | The same model with a log of the messages that were put into mailboxes, and numbers for contexts that are never used again (not in the code), so that the theorem can speak about the parent itself and not about its id. (Proc) | partial | With a parent that exists and three free cells the message arrives, once, at the parent and nowhere else. Violated: (kill (self) v) sends nothing, with fewer than three free cells an error is silent, and if the parent has ended the message goes to the process that got its id. That the message can be pushed out of a full mailbox is in C36. |
| C96 | A new process computes the call it was made with | `spawn` over the store of the evaluator (`Eval/Spawn.lean`). The semantics of the call is inverted to that of the body in the environment that spawn builds; the machine follows by C39, the other processes by C93, the additional cell by C90. (Eval) | partial | For the right number of arguments, any schedule and collections. Missing: programs outside of the semantics of C39, spawn-trap. Violated: with too few arguments one parameter is bound to the word above the stack, and with too many the rest is lost; a call reports an error in the first case and binds rest-args in the second. |
| C97 | eval-program evaluates the expressions of a program | `apply_eval_program` on top of the machine (`Eval/Program.lean`). The new program is made of cells that nothing else refers to; by C87 the expressions do not change them, by C39 each comes to its value. (Eval) | partial | For expressions that have values in the semantics of C39, all but the first of them without local variables. Violated: all but the first expression are evaluated in the empty environment; after an error that is trapped, or an escape through a continuation, the rest of the inner program is still in the program register: it is evaluated after the outer one, and its (app-cont) takes the last word from the stack. |
| C98 | Destructors of custom values | Custom values over the heap and collector of C07-C10 (`Verif/Custom`), blocks by address, calls of destructors in a log. An invariant over histories counts creations, calls and values that exist, and relates the blocks in use to the cells; releases of a sweep come from C08. (Custom) | partial | All histories. Violated: the block of a value destructed by custom-destruct is never given back; vector and matrix functions do not look at whether the creation succeeded: they read through a null pointer, or lose the memory of the numbers. Effects of destructors on memory are not modelled. |
| C99 | Arrays of values | The array functions on the heap of C07-C10, elements in the cell (`Lists/Arrays.lean`). Laws of reading and writing, loops by induction over the list of elements. (Lists) | partial | Violated: in the 32 bit build mkarray with 2^30 elements or more gives a smaller array without an error; the empty list has no array, list-to-array gives nil. Empty arrays from (mkarray 0) are not covered by the mkarray theorem: the next collection reads outside of them (C07). Indices are integers in the range of int32. |
| C100 | wait returns when the process has ended | `apply_wait` and `cont_wait` over the scheduler of C32 (`Sched/Wait.lean`). Decision logic of the poll from the invariant that every context is in one place; the end of the wait from fairness (C33) and waking (C37) by induction over the execution. (Sched) | partial | All executions of the scheduler of C32. A poll returns exactly if no process has the id. The wait ends if the id is not used again. Violated otherwise: the id is the place of the context in memory, and a wait goes on for any other process that is created there. A process that waits for itself waits for ever. One microsecond more than 50 ms if the clock has wrapped (C37). |
| C101 | Loops do what they say | `make_list` and the four macros as functions that take the cells they need from a counted heap (`LoopExt/Model.lean`); code as trees, `IsTm` says which tree is in memory. The expansion by induction over the tree, for both orders in which a C compiler may evaluate arguments. The loop by induction over its iterations on the machine of C39, each part of an iteration by the simulation theorem of C39. (LoopExt) | partial | All bodies, environments, continuations and numbers of iterations, on the machine of C39, for parts that end with a value and neither write to the code of the loop nor assign to its names. Violated: loopforeach stops at an element that is nil and evaluates its list once before the loop and again with it; the update of loopfor is done before the body; variables called a01, a02, a03, a04 or break are captured. |
| C102 | A stack gives back what was put on it | The stack as block, pointer and size, with every access checked (`Stack/Model.lean`); the specification is a list with a bound. Refinement by induction over the history; the marking of unused words as part of the relation. (Stack) | partial | All histories and sizes, by refinement to a list, where no pop is done with too few words. Violated: lbm_pop does not check for an empty stack; the reported largest use misses words equal to the filler. |
| C103 | The profiler counts each sample once, for the process that ran | The table of entries with its arrays of 20 bytes, `memcpy` and `strncmp` on bytes (`Prof/Model.lean`); the specification counts samples by key. By induction over the samples, with the table described as a function of the keys in order of first appearance. (Prof) | partial | All sequences of samples and table sizes; exact contents of the table. Violated: lbm_prof_init returns false also when it succeeded; processes first seen with a full table have no entry and their samples are in no count; names are compared by 19 bytes. |
| C104 | A program is evaluated expression by expression | The reader machine of C91 with the continuation for incremental reading on top and the evaluator as a parameter (`Print/Incr.lean`); the specification lists the evaluations as a relation over the token sequence (`Print/IncrSpec.lean`). By induction over the text that is left, with the reading of one expression taken from C91; uniqueness of parsing gives the statement for well-formed programs. (Print) | partial | All texts, worlds and evaluators (a parameter that keeps the symbol table in order); exactly which expressions are evaluated and how it ends. For well-formed texts the same expressions as C91. Violated: a lone ] is evaluated as a symbol; a last value that is a symbol of the reader ends in an error. Left out: streams that are fed while the program runs, collections while reading, and that reading can run out of heap. |
| C105 | random numbers | `ext_seed` and `ext_random` on bit vectors of the width of a word (`Rand/Model.lean`). The recurrence on 64 bits is affine modulo a prime: primality by the criterion of Lucas, the order of the multiplier from the factors of M - 1, and the rest by pigeonhole. On 32 bits witnesses. (Rand) | partial | All seeds and histories. On 64 bits the exact period, for all seeds but one class, from the primality of the modulus and the order of the multiplier. Violated: (seed 194187152) gives the same number for ever; on 32 bits the product wraps before the remainder is taken, the results from the initial seed repeat after 18535 calls and those from (seed 32620102) after 28. |
| C106 | The host can load and start programs | The allocations one by one in the heap of C07, with the symbol table of C25 and the environment of C20 (`Host/Model.lean`). Each allocation is a step of an invariant: which free cells are used, and that what was built stays; for every number of free cells. (Host) | partial | All heaps with an intact free list, all histories of the global environment and of the symbol table. Violated in spirit: with a heap full of garbage the functions fail, no collection is tried. The creation of the process is C94; the evaluation of the program C39, C91 and C104. |
| C107 | The evaluator's stack stays intact | A grammar of frames (`Framed`) as specification; an invariant of `step` in the evaluator model of C39, proved for every special form and every continuation; the causes of undefined behaviour that remain are listed in an inductive predicate (`Fault`). Witnesses for `[appcont]` and for errors between reservation and writing. (Eval) | partial | All expressions, environments, stores, stack sizes and histories of steps of the evaluator model (with eval-program) in which the internal form [appcont] is evaluated only at the end of a program of eval-program. Violated by programs that make that form with str2sym, and by jumps to a continuation out of eval-program. C107_ub_partial lists what else can go wrong in a step: environments, patterns or program lists that are not lists, continuations that call-cc did not make, and errors raised between the reservation of words and their writing (C41). |
| C108 | A JPEG picture is shown as it was encoded | A model of tjpgd.c (the bit reader with its register and buffer, Huffman search, tables, segments, blocks, units, rows) and of disp-render-jpg. The input refines a stream of bits (`In.stream`). As specification a small encoder. Round trip by induction over code words, coefficients, blocks, units and rows; the header by induction over the segments. (Jpg) | proved | C108_file: every file that the small encoder of Spec.lean (Picture.file: segments, Huffman codes, zigzag, prediction of the first coefficient, stuffing, padding) makes is rendered as the pixels of Picture.rects. The inverse transform is a parameter (all functions from 64 values to 64 values). A product that does not fit into 32 bits is excluded where it is undefined behaviour (Exact). C108_bits and C108_word hold for every input, also for one that ends or has a marker in the middle. |
| C109 | No file makes the JPEG decoder touch memory that is not its own | The same model, with accesses outside of a table or buffer, null pointers and loops without end as an outcome (`ub`). An invariant over the segments (the pool, complete tables, known samplings) gives what decoding needs; then the loops cannot reach `ub`. Tiling by counting the rectangles that cover a point. Witnesses for the violations. (Jpg) | partial | Proved for all byte arrays when the preparation ends well and on machines that cut products of 32 bits. Violated by disp-render-jpg: it ignores the result of jd_prepare, so a file that is cut off behind the start of the frame is decoded through null pointers; and by signed overflow in the product of a coefficient and its factor. |
| C110 | JPEG colours are those of the standard, cut to a byte | Arithmetic on integers with the model's `byteclip` and `rgb`. (Jpg) | partial | For values from -512 to 511, and colours within 1.1 of the standard. Violated for larger values: the table is indexed by the value modulo 1024, so 512 is shown black. |
| C111 | Vectors and matrices compute elementwise and stay inside their memory | A model of matvec_extensions.c with blocks of elements that may be unwritten, accesses outside of a block as an outcome, the allocators as parameters. Loops by induction; the safety invariant (all blocks complete) for every call. (Matvec) | partial | All numbers, sizes below 2^30 and arguments; floating point arithmetic is a parameter. C111_safe_partial is an invariant over any history of calls. Violated: a matrix of zero columns is a division by zero; without memory for the custom value the functions write through nil; vproj reduces the index modulo 2^32; vector-to-list reports a type error, not missing memory, when the heap has too few free cells, so no collection is tried. |
| C112 | A filled rectangle with round corners is a part of the rectangle | The three rectangles and four disks of the code; the union of their sets of pixels is compared with a specification of the shape. (Img) | partial | Exact for radii up to 4. For larger radii the code violates it: the disks are centred on a pixel, so the shape reaches one column and one row further than the rectangle (witness), never more (rounded_bound). Missing: rounded outlines, which use arcs. |
| C113 | img-blit scales and rotates | The loops of blit_rot_scale over a function that gives the place in the source, with int arithmetic checked for overflow. The specification states which pixels of the destination a pixel of the source covers. (Img) | partial | Images of the same format other than rgb565 (there red is lost, C80), positions up to 100000. The conversions from float to int, the sine and the cosine are parameters. The code violates it: places are rounded towards zero, so an enlarged picture has its first row and column nearly twice as large, reaching beyond the position (scale_fringe_violated, for every factor); a scale below 0.001 is a division by zero. |
| C114 | Drawing functions take numbers and attributes in any order | The loops of decode_args with the sizes of the arrays; a write outside of an array is an outcome of its own. The specification says which argument lists are good and what their numbers are, without indices. (Img) | partial | Calls that must be taken are, for every function (none needs more than eight numbers). Other calls are refused when they have at most eight numbers and their lists at most four elements. The code violates the rest: the bounds are checked after the write, so a ninth number, and a fourth number of an attribute, is written behind the array it belongs to. A call without arguments is not modelled (it reads the first argument). |
| C115 | A process that waits for a message gets it | A state with the queues of the scheduler model, a mailbox for each context and the recv it is in. The invariant: who is blocked in recv has no message that fits. The claim about a message that is sent follows by induction over the execution, with the fairness of C33. (Chat) | partial | The scheduler of C32 and the mailboxes of C35 together, all executions from the start. Each recv has enough free cells to look through the messages; the code violates the claim otherwise: the process blocks although a message fits. The process is not killed, no reset, and fewer messages are sent to it than its mailbox holds (C33, C35). How long recv-to waits is C60. |
| C116 | Events reach their destination | The state of C115 with the event queue of C38 and the buffers of flat values. The invariant: the queue holds the letters that were accepted and not delivered, and the allocated buffers are those of the host and those in the queue. (Post) | partial | The event queue of C38, the processes of C115 and the buffers together, all executions from the start. Violated by the code: an event for a handler that has ended is accepted and goes nowhere. A value for which there is no memory arrives as eval_error. Receiving has the conditions of C115. What a flat value stands for is C13 to C15, what a definition does is C20 and C74. |
| C117 | env-get and env-set give access to the global environment | The extensions on the model of the global environment; env-set becomes an operation of the histories. Restoring: the saved bindings stay, cell by cell, behind those that are added. (Env) | partial | Over all histories of the global environment, which now include env-set (so C20 to C22 hold for them too). env-set is covered for environments that fit the bucket; the code stores anything. Restoring is proved if only variables without a value were defined in between; violated by the code otherwise, since env-get does not copy. |
| C118 | The stack of the garbage collector can be replaced | The extension on the allocator of C01 to C04; the invariant that the stack is one of the live blocks, with its size. (Rts) | partial | For arguments whose size in bytes fits into a word, which is always the case on 64-bit builds. Violated by the code on 32-bit builds for 2^30 words and more (the size wraps around). |
| C119 | A thin arc is the part of a thin circle between its ends | The rows from the outside to the inside, with the first pixel of the row before: the span is the set of pixels of the row with a neighbour outside. The angle test with Mathlib's sine and cosine. A walk that leaves the disk meets a pixel of the rim. (Img) | partial | The end points, the rows min_y and max_y and the decision whether the arc is longer than a half circle are computed in floating point and are parameters. Exactly half a circle is excluded: there the code drops the pixels on the line through the ends when it takes the arc for not longer than a half circle. The lines of sectors and segments, and arcs that are thicker, are not modelled. |
| C120 | Freeing a buffer is safe for everything else | The allocator of C01 below a list of array cells. Invariant: the allocated blocks are the headers and the data of the arrays with a reference, and others; a data pointer is null exactly when the size is 0. From it disjointness of arrays, and the frame properties of the operations. (Bufs) | partial | Violated by eq and by unflatten, which do not check that the array was freed and read through a null pointer (C120_freed_violated); proved for all the functions that go through lbm_is_array_r or lbm_is_array_rw. Constant arrays are not in the model. |
| C121 | A continuation stays in the stack of the process that applies it | Stacks and stored continuations as blocks of the allocator of C01, with the words of the memory. Invariant: the blocks are live and disjoint, stack pointers are in the blocks, a stored continuation is not larger than the stack of its process. A frame property of each step; then what capture stores and application restores. (Kont) | partial | The code violates it for a process with a stack that is smaller than the continuation: there is no check, and the copy overwrites the memory behind the stack (witness). Proved if the stack is large enough, in particular for the own continuations of a process. |
| C122 | The built-in functions on lists do not depend on addresses or garbage and reach only what they are given | A small language of programs with registers for values that can take car and cdr, make and change cells, branch on kinds, identity and structural equality, and compute with numbers. The functions are written in it. Both conditions of C86/C87 and of C90 are proved for all programs of the language, so the theorems about evaluation hold without a condition on these functions. (Eval) | partial | Proved for these functions on values made of cells, symbols and numbers, and for every other function that can be written as a program of the same kind. Not modelled: the parts for arrays and for constant cells (an allocation that fails inside of a function is in C125). |
| C123 | Association lists | An inductive predicate for association lists gives the keys and values; the loops of assoc and setassoc are proved by induction over it. The laws are about lists of keys and values. (Eval) | partial | The code violates the last law for keys that are lists: setassoc compares keys by identity, assoc by structure (witness). Proved for keys that are not lists. Keys that are numbers in cells of their own (i64, double, ...) or byte arrays are not in the model; for them setassoc compares addresses too. |
| C124 | Colour objects keep their properties | The colour of C84 with the functions that change and read it. Invariant over all histories: widths and offsets have 16 bits, a table has 512 entries exactly for precalculated gradients and their width is at most 512. From it: all accesses are inside the table and drawing is defined if the width is not 0. (Img) | partial | The code violates two parts: the width can be set to 0 and drawing then divides by zero, and entries of the table behind the width are not initialised when the colour is made (witnesses). Numbers are integers; positions up to 6000000. |
| C125 | Running out of memory inside a built-in function is repaired | The programs of C122 are run with a budget of free cells. A syntactic check on the programs (no allocation after a write, also through jumps) gives: same result or only new cells. New cells are not in use, so the collection after the failure is a collection of the state before it, and C122 gives the same result for the moved arguments. (Eval, Gc) | proved | The functions on lists of C122. Condition of C125_retry and C125_called: the function does not give the symbol out_of_memory as its own result. C125_program is for whole programs, on the evaluator with the collector of C73; there the second attempt finds enough memory. |
| C126 | Arrays made from memory that the host already has | The model of C120 with lift as one more operation and a record of which arrays have the host's data. The invariant of C120 holds for the other arrays, with the headers of the host's arrays among the blocks in use; a pointer outside of the memory is ignored by the allocator's free. (Bufs) | partial | Holds for memory of the host and for blocks that are made into an array once. Violated for a block of the system's memory that is shared twice: the code does not notice, and the second array refers to freed memory (C126_twice_violated). Constant arrays (lbm_share_const_array) are in C128. |
| C127 | Reading from a string | create_string_channel and the first part of apply_read_base over the heap, collector and blocks in use of C98; the dependency of a channel is a reference for the marker (C07). An invariant over all that may happen while a string is read. (Custom) | partial | Holds for strings with a terminator whose bytes are in a block of their own. Violated for byte arrays without a terminator, which read accepts (C127_unterminated_violated), and for arrays in a defragmentable memory, whose bytes may be moved during the reading (C127_moved_violated). Channels made by the host are not in the model. |
| C128 | Constant arrays made from memory that the host already has | lbm_share_const_array over the model of the constant heap of C47. A word that is written never changes, so that the four words of the array stay; the room follows from the specifications of the allocation functions. (Flash) | proved | The bytes behind the pointer belong to the host and are not in the model. |
| C129 | type-of names the type of each value, is-nan and is-inf classify each number | fundamental_type_of and the two predicates over the words of C12; the decoding functions are parameters. Case analysis on the kinds; the bit tests are proved to be the IEEE definitions for all bits. (Val) | partial | Disagreements: type-of has no case for channels, although the symbol type-channel exists; is-nan and is-inf answer no for every double in the constant heap. |
| C130 | Literals of floating point numbers and of characters are read whole | The tokenizer of C17-C19. A loop lemma for each part of the literal; the dispatch shows that no tokenizer that is tried earlier takes the text. (Tok) | partial | All literals are read as stated. Disagreement: texts with signs between the digits of the exponent are accepted as a number and cut by strtod. The conversion by strtod is outside the model. Longer texts: C53. |
| C131 | set-car and set-cdr change exactly one field of one pair | Induction over the calls, against the last value written to each field. (Heap) | proved | Targets that are pairs by type are pairs by content. |
| C132 | The report on the most memory in use | Histories of C01 with a record of the live blocks at each update; no other function changes the minimum. (Mem) | partial | The last sentence fails: memory that is allocated and freed between two garbage collections is not in the report. |
| C133 | Flat values made by the host | Calls over the buffer of C13 with induction over the list of calls; the memory of C01 for start and finish. (Flat) | proved | For lengths below the word size: buf_pos + num_bytes does not wrap. Every size that can be allocated is so. |
| C134 | Restart markers | Bit arithmetic on the marker, for markers met before and for the next two bytes of the data. (Jpg) | partial | The reserved markers F0 to F7 are taken for restart markers as well, as the theorem says. |
| C135 | disp-render gives the driver the image, the place and sixteen colours | The loop over a heap with arbitrary pairs, by induction over the number of colours that are left; an arbitrary driver. (Img) | partial | The place is cut to 16 bits: -1 is given to the driver as 65535 (witness). |
| C136 | flatten takes the memory of its result and nothing else | flatten_value over the allocator of C01-C06; a value without those parts is written whenever its size is positive (induction over the value); all the ways it ends with the live blocks. (Flat) | partial | The code violates it for values whose size is computed but that cannot be written (an empty byte array anywhere, or a channel or other value without a flat form inside an array of values): header and buffer stay allocated for ever, with nil as the error (C136_leak_violated). Proved for all other values. |
| C137 | The host can read a part of the global environment as a flat value | lbm_flatten_env on top of C136 and C13, the sweep of the array that nothing refers to on top of C03. (Flat) | proved | For buckets with a flat form; what a failing call leaves behind is C136. |
| C138 | Every ready process gets its turn after a bounded number of steps of the others | The inner loop of the evaluator with its quota, arbitrary effects of steps on the queue; induction over the history with the place in the queue. (Quota) | partial | For quotas of at least 1. The code violates the last sentence: (set-eval-quota 0) is accepted, and after it no program makes a step any more (C138_zero_violated). Atomic blocks are C34, requests of the host C92. |
| C139 | The collector reports its own work exactly | Marking leaves the counters alone (induction over the mark loop), the sweep counts the unmarked arrays; induction over histories with the list of free counts. (Heap) | partial | The code violates the last part: the values an allocation protects are marked before the counter of marked cells is reset, so they are not counted (C139_marked_violated). The counters are natural numbers in the model, so their wrap at 2^32 is left out. |
| C140 | An image has the size it was made with | The functions on arguments, blocks of memory with any content; arithmetic of sizes and headers. (Img) | partial | The code violates the last part: img-buffer? computes the size rounded down and takes any format, so it accepts arrays that are too small (C140_small_violated). img-dims without arguments is left out: it reads an argument that does not exist. |
| C141 | The sizes of the symbol table are those of its entries | The operations of C25 with the four counters and a record of what was stored; an invariant over histories. (Sym) | partial | The code violates the exact claim: an entry with a constant name takes 12 bytes and counts 3 (C141_const_violated), and a name written to flash counts although its entry could not be written (C141_lost_violated). C141_sizes_partial gives the exact difference. The counters are unbounded numbers in the model. |
| C142 | Mathematical functions of any numbers | The functions over values and a number of free cells; induction over the arguments from the last to the first. (MathExt) | proved | The C library and the floating point unit are parameters; of the heap only the number of free cells is kept. |
| C143 | The host can clear the environment | The loop over the buckets and the collector of C07; the reachable cells are those of the processes. (Env) | proved | Under the conditions of C07 and C08 on the heap (a large enough stack of the collector, no unreachable pair with a type symbol in its cdr). The evaluator is paused. |
| C144 | No call that unblocks a process is lost | A transition system of the evaluator and any number of threads around blocking_extension_mutex; an invariant over all interleavings. (Sched) | partial | Proved for extensions that do not return an error after they asked to be blocked. False otherwise: after another error the flag stays set and the mutex locked, and the next process that calls an extension is blocked instead; after a memory error the evaluator waits for ever for its own mutex. One process is followed; a reset of the evaluator is left out. |

## Where the code and the properties disagree

Each item is a theorem (`_violated` unless another name is given) about the model; the code lines are cited at the definitions used.

* Memory: freeing a pointer strictly inside a live block is rejected but moves the scan offset into the block, so that later allocations overlap it (C05). `lbm_memory_longest_free` wraps around when the reserve is not available (C06).
* Collector: when the mark stack is full at a lisp array the rest of the array is not marked; an empty lisp array is read through a null pointer; environments in the constant heap are not followed (C07). Unreachable pairs whose cdr is a type symbol release memory they do not own (C08). An array that contains itself makes marking loop (C09).
* Flat values: empty arrays do not survive (C13); lengths in the buffer are trusted, so that reading runs out of the buffer (C15); boxing without memory is silent (C50).
* Characters and tokens: peeking more than 256 ahead wraps around the ring (C16); unterminated strings are accepted at the end of input in two cases (C18, `C18_lone_quote_accepted`, `C18_unterminated_accepted`); decimal numbers of more than 128 digits overflow a buffer (`C53_overflow`); reading at the end of a string channel succeeds (C51).
* Environments: assigning to an unbound variable unbinds every global of the same bucket (C21) and can make `undefine` fail (C22); `lbm_define` in a full heap loses a bucket (C20).
* Defragmentable memory: arrays do not keep their pool alive (C23).
* Symbols: clearing a symbol that is no extension clears an unrelated one (C55); `u2sym` makes symbols outside the tables (C56).
* Numbers: sums of mixed types depend on the order, a full heap yields an error symbol that is used as operand, signed overflow is undefined (C26); 64-bit dividends are cut to 32 bits, divisors `u` that are multiples of 2^32 count as zero (C27); `<` and `>` with three arguments test whether some argument is greater, mixed signs compare wrongly (C28); conversions of non-numbers give 0 (C57); shifts by the width are undefined, bytes are a type error (C58).
* Equality: opaque objects and NaN are not equal to themselves (C29).
* Lists: `rotate` of one element gives nil, `range` wraps or overflows (C30); `sort` assigns the parameters of the comparator in its captured environment (C31).
* Processes: a process that is killed all the time never runs (C33); a process that ends in an atomic block stops all others for good (C34); all sleepers wake when the clock wraps on 64-bit builds (C37); a message that does not match restarts the wait of `recv-to` with a wrong duration (C60); without memory `recv` blocks although a message matches (C35); a smaller mailbox is written out of bounds (C36); bindings of failed patterns leak (C43).
* Evaluator: `trap` fails to catch in five cases (C41: spawn-trap flag, escape through a continuation, malformed `define`, missing arguments, atomic blocks); guards after a failing guard see the wrong environment (C42); `loop` evaluates condition and body in the environment left over (C62); `var` in the tail of a `let` or of a closure body uses another scope (C63); the argument of a continuation is evaluated in the environment left over (C64).
* Buffers: on 32-bit builds index -1 passes the bounds test of accesses of several bytes, indices are reduced modulo 2^32, `i32` elements lose their top four bits, `bufset-f32` stores normal numbers below 1.5e-38 as 0 and is undefined for infinities, `bufget-f32` reads no subnormal number correctly and NaNs as infinities (C45); overlapping `bufcpy` is undefined, `bufclear` of 2^32 bytes or more (C46).
* Constant heap: words are written again after a failed write; sizes wrap around (C47). `move-to-flash` reads the first element of an empty array, leaves defragmentable memory in RAM, copies constant lists (C48).
* Printer and reader: names with upper case letters, strings of more than 256 characters, arrays larger than the memory set aside, lisp arrays do not read back; printing an array that begins with an unprintable byte reads before its data (C49).
* Events: the value of an event that defines a variable is not a root while the binding is allocated and can be freed (C74).
* Strings: arrays without a zero, which `bufcreate` makes, are read past their end by `str-cmp`, `str-split`, `str-replace`, `str-to-i` and as delimiter of `str-join`; the empty array is a null pointer in `str-split` and `str-replace`; `(str-replicate -1 c)` writes 2^32 bytes into an empty array; the size in `str-join` wraps around on 32-bit builds (C65). An empty pattern is found behind the terminator (C70). `str-from-n` prints modulo 2^32, `str-to-i` of large numbers differs between builds (C71). `to-str` without arguments returns uninitialised memory (C72).
* Images: arrays that were not made by `img-buffer` are accepted although they are too small, drawing with large numbers overflows (C75). `rgb565` loses red, colour numbers that are too large change the next pixel, coordinates wrap at 65536 (C76). `img-clear` clears a quarter of an `rgb565` image (C77). Lines with a slope between one half and one miss their end (C79). Circles have holes at the diagonals, small filled circles are not centred (C81). The outline of a rectangle is larger than the filled one and misses a corner (C82). Any array of 254 bytes is taken for a font (C83). A gradient without a width divides by zero, mirrored precalculated gradients differ from the gradient (C84).
- C85: `member` and `set-insert` use `struct_eq`, which is false for a NaN or a channel and itself. Such a value is never found, and each insertion adds it again (`nan_twice`).
- C88: `map` uses one expression `(f (quote x))` for all calls and changes `x`. A thing that is applied without evaluating its argument can return a part of it: `(map 'quote '(3 4))` gives `((quote 4) (quote 4))`, one cell twice (`C88_quote_violated`).
- C89: the pointer reversal marker does not follow the dependency of a channel, so that the buffer under a channel in use is reclaimed (`C89_channel_violated`). It takes the continuation markers in the saved stack of `call-cc` for pointers to cells 0 to 50 or so, marks these cells without what they refer to, and a list in use that goes through such a cell loses its rest (`C89_continuation_violated`).
- C91: the reader accepts texts that are no expressions: `')` is `(quote <closing bracket>)`, in `(1 ] 2)` the bracket is an element, `{x)` is accepted, `read-program` of `1 ) 2 (` gives `(1)` and ignores the rest, and `read` of white space is an error although `read` of the empty text is `nil` (`C91_..._violated`).
- C92: the evaluator reads the requested state twice. If a request to pause is written between the two, the state becomes `PAUSED` but evaluation goes on, and the request is not seen again; this can happen although the other thread waits for the effect of each request (`C92_paused_quiet_violated`). In state `RESET` the evaluator goes on to process events although the header says that the memories are to be reinitialised then (`C92_reset_pauses_violated`). The `:pause` command of the REPL asks for garbage collection and cancels it at once (`C92_pause_collects_violated`).
* Process ids: the id of a process that has ended is given to the next one that gets the same memory, so that messages, `wait`, `kill` and exit messages can reach the wrong process (C94, C95). `(kill (self) v)` in a process made with `spawn-trap`, and an error with fewer than three free cells, do not tell the parent (C95).
* `spawn`: the loop that binds parameters runs to `i <= nargs`, so that with too few arguments the first parameter without one is bound to the word above the top of the stack; surplus arguments are dropped (C96).
* `eval-program`: all but the first expression are evaluated in the empty environment, also with an explicit environment; an error in the program that is trapped, or a continuation that leaves it, leaves the rest of it in the program register, and later `(app-cont)` empties the stack: the next step reads below its start (C97).
* `custom-destruct` does not give back the three words of the value (C98). A second `custom-destruct` of the same value is a `fatal_error`, which `trap` does not catch.
* `vector`, `list-to-vector`, `matrix` and others ignore whether `lbm_custom_type_create` succeeded: when three words are missing they dereference a null pointer, when a cell is missing the memory of the numbers is lost (C98).
* `mkarray` computes the size in bytes modulo 2^32: (mkarray 1073741825) is an array of one element in the 32 bit build (C99). `(list-to-array nil)` is nil, not an array.
* `wait` is for an id and not for a process: if the id is used again before the next poll, it goes on (C100).
* If `x` is nil and `y` is bound to an error symbol, the template `(,@x . ,y)` is an error, since `append` then returns that symbol (C44).
* `loopforeach` stops at an element that is nil, and evaluates the expression for the list twice (C101).
* The update of `loopfor` is done before the body, so that the body sees its effects (C101).
* The macros bind `a01` to `a04` and `break`: the variables of the program with these names cannot be seen in a loop (C101).
* `lbm_pop`, `lbm_pop_2` and `lbm_pop_3` do not check for too few words; the header says they fail (C102).
* `lbm_get_max_stack` misses words at the top that equal the filler 0x55555555 (C102).
* `lbm_prof_init` returns false when it succeeded (C103).
* With a full table the profiler drops samples of further processes but counts them in the total (C103).
* `(read-eval-program "] 1")` evaluates the closing bracket as a symbol (C104).
* `(read-eval-program "']")` ends with an error after everything was evaluated, because the value is a symbol of the reader (C104).
* On 32 bits `A * random_seed` wraps before the remainder is taken, and the period of `random` from the initial seed is 18535, not 268435182; from `(seed 32620102)` it is 28 (C105).
* On 64 bits after `(seed 194187152)` every random number is 194187152 (C105).
* The functions with which a host loads programs return -1 when the heap is full of garbage: no collection is tried (C106).
* `[appcont]` is a special form for internal use that programs can make with `str2sym`, and that a jump out of `eval-program` leaves in the program of the context. It takes the continuation code off the stack and the next word is taken as a continuation, although it is a value: `(+ 1 ([appcont]))` has undefined behaviour (C107).
* `disp-render-jpg` ignores the result of `jd_prepare`; files that are wrong behind the start of the frame are decoded through null pointers (C109).
* The size of the pool that `disp-render-jpg` passes is 4106 for an allocation of 4101 bytes; only because both are rounded to words is nothing written beyond it (C109).
* `d * dqf[i]` in `mcu_load` can overflow a signed 32 bit integer (C109).
* `BYTECLIP` shows values of 512 and more black (C110).
* `list-to-matrix` with zero columns divides by zero (C111).
* `vector-to-list` turns `out of memory` into a type error, so no garbage collection is tried (C111).
* The vector and matrix functions do not check that the custom value was created (C98, C111).
* A filled rectangle with round corners of radius 5 or more is one column and one row larger than without round corners (C112).
* Thick circles with a radius above 2001 are hollow: the search for the inner edge gives up 2000 pixels from the centre (C81).
* A picture that is enlarged by img-blit starts before its position: its first column and row are nearly twice as wide as the others (C113).
* A scale below 0.001 makes img-blit divide by zero (C113).
* A ninth number in a call of a drawing function, and a fourth number of an attribute, is written behind its array before the call is refused (C114).
- C116: if the registered event handler has ended, `lbm_event` still returns true and the event is dropped when it is delivered: `lbm_event_handler_pid` is not reset when a context ends.
- C117: `env-get` returns the environment itself and `define` changes it in place, so storing a saved value does not bring back the old values of variables that were defined anew.
- C117: `env-set` stores any value. After `(env-set 1 '(5))` a lookup dereferences the number 5 as a cell (`lbm_global_env_lookup` uses `lbm_ref_cell` without a check).
- C118: `set-gc-stack-size` computes `n * sizeof(lbm_uint)` without a check; on a 32-bit build 2^30 + 1 allocates one word and sets the size of the stack to 2^30 + 1.
- C119: `img-arc` from 0 to 360 normalises both angles to the same one and draws nothing; `norm_angle` subtracts a turn at a time and does not end for infinite or very large angles. Both are floating-point matters outside of the model.
- C120: `eq` on byte arrays (`bytearray_equality`) and `unflatten` take the header of a byte array without the test for null that other functions make. After `(free a)`, `(eq a b)` and `(unflatten a)` read through a null pointer (`C120_freed_violated`).
- C121: applying a continuation copies the stored stack without comparing its size with that of the stack of the process. A process with a smaller stack (`spawn` takes the size) that gets a continuation in a message and applies it overwrites the memory behind its stack (`C121_small_stack_violated`).
- C123: `setassoc` finds the pair to replace by comparing words, `assoc` by comparing structures. With two keys of the same structure in the list, setting the second is not seen by `assoc` (`C123_set_list_key_violated`); with a key that is a new list (or a boxed number or a string) the old pair stays behind the new one.
- C124: `img-color-set` accepts width 0 (and multiples of 65536) for gradients, drawing with the colour then divides by zero (`C124_width_violated`). The table of a precalculated gradient is allocated and filled up to the width only, `img-color-getpre` behind it gives old contents of the memory (`C124_table_junk_violated`).
- C126: `lbm_lift_array` does not notice that a block of the memory already belongs to an array. If a host shares it twice, freeing or collecting one of the two arrays leaves the other one with freed memory (`C126_twice_violated`).
- C127: `apply_read_base` accepts every byte array and calls `strlen` on it: an array without a zero byte makes it read outside of the array (`C127_unterminated_violated`). The channel keeps the address of the bytes; for an array in a defragmentable memory a later `dm-alloc` may move them (`C127_moved_violated`).
- C129: `type-of` ends with an evaluation error for a channel, although there is a symbol `type-channel` (fundamental.c:1222-1238). `is-nan` and `is-inf` compare the type with the constant bit still in it, so that they answer no for a NaN or infinity in the constant heap (math_extensions.c:140-157).
- C130: the loop for the exponent takes digits and minus signs in any order (tokpar.c:345-351): `1.0e5-3` is one token, and `strtod` reads 1.0e5 from it.
- C132: the minimum of free memory is only updated at the start of a garbage collection (eval_cps.c:1640), so that a peak between two collections is not reported (`C132_between_violated`).
* The mask 0xFFD8 in `restart` leaves a bit open, so that the markers F0 to F7 are taken for restart markers (C134). The two places a half of the width away from the middle of a mirrored gradient have different colours (C84, `gradient_mirror_violated`).
- C135: `disp-render` does not check its place but cuts it to 16 bits.
- C136: `flatten` of a value with an empty byte array, or of an array of values that contains a channel, fails after header and buffer have been allocated and does not free them: each such call loses memory for good.
- C138: `(set-eval-quota 0)`, or any number that is 0 modulo 2^32, is accepted and stops all programs for good.
- C139: `gc_marked` leaves out the cells reached from the values that `cons_with_gc` and `WITH_GC_RMBR_1` protect: they are marked before `lbm_gc_state_inc` resets the counter.
- C140: `img-buffer?` accepts arrays whose pixels do not fit (3 x 3 pixels of one bit in one byte) and unknown formats. `(img-dims)` reads `args[0]` with no arguments.
- C141: `lbm_add_symbol_const_base` adds 3 to a counter of bytes (it should be 12), and `store_symbol_name_flash` counts a name before its entry is written.
- C144: an extension that asks to be blocked and then returns an error leaves blocking_extension set and its mutex locked (eval_cps.c:3065-3067); the next process that calls any extension is blocked in its place, and a memory error makes the evaluator lock the mutex twice.

Other observations made while reading, without a theorem: `spawn` removes its arguments from the stack before it allocates, so that the name of the new context is not a root; `lbm_memory_init` with a null pointer leaves the mutex locked; `lbm_create_ctx_parent` leaks the name when the first push fails; an extension that blocks and then returns an error leaves `blocking_extension` set; `lbm_define` always returns 0; `lbm_print_value` with a buffer of length 0 writes outside of it. `str-from-n` passes a format given by the program to `snprintf`, so that `"%s"` or `"%n"` is undefined behaviour.


## Seeded bugs

`seeded/LOG.jsonl` has one line per edit (1156 so far). An edit whose theorems did not fail is explained there, with the theorem that was tightened.
