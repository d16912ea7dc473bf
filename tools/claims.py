P("C01", "base64_roundtrip base64_roundtrip_empty")
P("C02", "base64enc_correct base64enc_needs_bufsize")
P("C03", "base64dec_safe_and_exact")
P("C04", "base64enc_str_correct")
P("C05", "raw2hex_needs_room raw2hex_correct hex_roundtrip")
P("C06", "hex2raw_value hex2raw_safe hex2raw_needs_room")
P("C07", "rc4_correct rc4_in_place rc4_involution rc4_prefix rc4_empty_key")
P("C08", "uint64ToString_correct int64ToString_correct uintToString_correct intToString_correct decimal_fits decimal_needs_room dec_canonical")
P("C09", "numberToString_correct numberToString_rejects numberToString_base0 numberToString_loses_zeros numberToString_needs_room")
P("C10", "utoa_correct utoa_underrun utoa_fits itoa_needs_room")
P("C11", "itoa_correct itoa_int_min itoa_fits itoa_needs_room")
P("C12", "strtoint64_roundtrip strtoint64_overflow strtoint_roundtrip")
P("C13", "stringfromipv4_correct dotted_fits ipv4_roundtrip ipv4fromstring_pieces isnumericipv4_dotted")
P("C14", "isnumericipv4_iff")
P("C15", "strstr_uc_sound strstar_sound strstr_uc_exact_of_constant strstar_exact_of_constant strstr_uc_complete_iff strstr_uc_finds_prefix")
P("C16", "findword_sound findword_left_boundary findword_left_boundary_fails")
P("C17", "char_classes case_conversion hexval_correct")
P("C18", "containsChar_correct containsChar_zero strends_correct")
P("C81", "strdup_n_correct strdup_n_whole")
P("C25", "sblist_refines_list sblist_insert_beyond_end", "sblist_sort is in C112")
P("C26", "sblist_failed_growth")
P("C27", "sblist_insert_sorted_correct")
P("C28", "sblist_bsearch_correct")
P("C29", "sblist_within_capacity sblist_from_data_overruns sblist_big_items_overrun sblist_default_block")
P("C30", "sblist_free_values_wrong", "the documented effect does not hold; the theorem states what happens instead")
P("C31", "tlist_refines_list tlist_refines_list_from tlist_insert_correct", "at most 2^32 - 1 calls, so the size fits unsigned; allocator obeys the malloc contract")
P("C32", "tlist_refines_list tlist_refines_list_from")
P("C33", "tlist_get_out_of_range", "the documented NULL is not delivered; the theorem states what is returned instead")
P("C34", "tlist_delete_deep_bad_free tlist_free_items_deep_bad_free")
P("C35", "tlist_free_items_correct")
P("C36", "tglist_refines_list tglist_fails_iff")
P("C37", "tgilist_refines_list tgilist_index_wraps")
P("C38", "bmap_is_map bmap_insert_index", "value list tglist (the default); bsearch by its ISO contract")
P("C39", "bmap_insert_outcomes bmap_overwrite_never_fails")
P("C40", "hbmap_is_map")
P("C41", "hbmap_foreach_visits_all")
P("C82", "tglist_free_values_correct")
P("C83", "tglist_insert_sorted_correct")
P("C42", "hashlist_get_correct hashlist_add_fails_with_one")
P("C43", "hashlist_next_results hashlist_next_visits_all")
P("C44", "kv_find_correct kv_find_null")
P("C45", "stringptr_eq_correct stringptr_eq_null stringptr_contains_correct stringptr_here_correct stringptr_here_past_end stringptr_hash_congr")
P("C46", "stringptr_hash_width_independent")
P("C47", "stringptr_shiftright_correct stringptr_shiftleft_correct stringptr_shiftleft_zero_needs_room stringptr_chomp_correct stringptr_rchr_correct stringptr_rchr_high_byte")
P("C48", "stringptr_copy_correct stringptr_copy_out_of_memory stringptr_strdup_correct stringptr_concat_correct")
P("C49", "stringptr_splitc_correct split_at_char_unique keep_everything stringptr_splitc_high_delimiter stringptr_splitc_needs_room")
P("C50", "stringptr_splits_correct split_at_string_unique stringptr_splits_empty_delimiter")
P("C51", "stringptr_replace_correct stringptr_replace_self", "The allocations of the intermediate list succeed here; C133 and C134 are about those that fail.")
P("C52", "stringptrlist_tostring_correct stringptrlist_tostring_dos_correct stringptrlist_lines_roundtrip")
P("C53", "stringptrlist_find_correct stringptrlist_find_null")
P("C84", "read_stdin_line_chomp read_stdin_line_keep stringptr_fromchar_exact")
P("C85", "stringptr_new_correct stringptr_new_overflow")
P("C86", "stringptr_hash_is_elf")
P("C87", "stringptrlist_dup_entries_correct")
P("C88", "stringptrlist_freestrings_correct")
P("C89", "stringptrlist_add_strdup_leak")
P("C19", "crc32_correct crc32c_correct")
P("C20", "crc_detects_bursts crc_detects_byte_errors crc32_misses_33_bit_burst")
P("C21", "crc32_residue crc32c_residue")
P("C90", "crc_needs_tables")
P("C91", "crc_final_twice")
P("C22", "md5_correct md5_needs_16 md5_running_digest md5_digest_size md5_constants")
P("C23", "md5str_correct md5str_needs_33")
P("C24", "sha512_correct sha512_correct_no_last sha512_digest_size sha512_constants")
P("C92", "sha512_bytewise_updates_wrong sha512_any_chunks sha512_tails_ignored sha512_first_ignored")
P("C57", "normalizepath_correct normalize_shorter normalizepath_too_long normalizepath_relative components_unique")
P("C58", "normalizepath_cstr_correct normalizepath_idempotent")
P("C59", "getpathdiff_correct getpathdiff_starts_with_slash getpathdiff_any_length", "getpathdiff_any_length: every two paths and every buffer")
P("C60", "getfilename_correct getFileExt_correct")
P("C61", "mktempdir_correct mktempdir_terminates")
P("C54", "tofile_correct fromfile_correct file_roundtrip content_exists")
P("C55", "readline_userbuf_correct readline_correct readline_enumerates readline_fd0 content_exists")
P("C56", "getnextlinelength_correct")
P("C66", "get_section_correct get_section_first get_next_section_visits")
P("C67", "getvalue_at_correct getvalue_correct file_as_section_correct")
P("C68", "count_sections_correct")
P("C69", "op_get_correct gives_unique op_get_empty op_hasflag_correct op_hasflag_dash")
P("C72", "bitarray_set_get bitarray_outside bitarray_get bitarray_get_swapped bitarray_size bitarray_fits bytem_bytel")
P("C74", "byteswap16_bytes byteswap16_involution byteswap32_bytes byteswap32_involution byteswap64_bytes byteswap64_involution le16_in_memory le32_in_memory")
P("C70", "ssalloc_history ssalloc_live ssalloc_disjoint ssalloc_free_before")
P("C71", "ssalloc_fails_iff ssalloc_full_iff ssalloc_incomplete")
P("C73", "guard_alloc_correct guard_alloc_fails guard_free_exact guard_free_leaks guard_alloc_wraps guard_alloc_wraps_zero")
P("C62", "vsnprintf_correct vsnprintf_inside vsnprintf_size_zero")
P("C63", "snprintf_d snprintf_u snprintf_ld snprintf_lu snprintf_s snprintf_c snprintf_pct snprintf_prec snprintf_x")
P("C64", "width_digits precision_overrun")
P("C93", "precision_leaks vsnprintf_correct", "The general statement is vsnprintf_correct with the specification's pend/convText, which carry the width over strings, characters and percent signs to the next number.")
P("C94", "format_parses vsnprintf_correct vsnprintf_fails")
P("C75", "timespec_diff_correct timespec_diff_range timespec_diff_laws getutime_correct mspassed_correct msleep_correct microsleep_correct")
P("C76", "msleep_correct microsleep_correct sleep_negative")
P("C65", "timestamp_correct timestamp_overflow_iff timestamp_year log_timestamp_correct")
P("C77", "log_put_correct log_puterror_correct")
P("C95", "fprintf_correct fprintf_fails stringptr_format_correct stringptr_format_fails")
P("C78", "stringptr_tofile_correct stringptr_tofile_succeeds stringptr_tofile_stuck stringptr_tofile_refused stringptr_fromfile_correct stringptr_fromfile_succeeds stringptr_fromfile_shrunk stringptr_fromfile_refused wholefile_roundtrip")
P("C96", "stringptrlist_tofile_correct stringptrlist_tofile_refused")
P("C79", "process_open_fails process_open_no_leak process_open_succeeds process_open_stdin_closed process_open_init_fails")
P("C97", "process_open_succeeds")
P("C98", "daemonize_correct daemonize_no_null daemonize_parent")
P("C80", "filelist_search_too_long filelist_search_error filelist_search_correct filelist_search_memory filelist_search_nameless filelist_paths filelist_search_null escape_literal")
P("C99", "escape_backslash escape_shortens escape_literal_iff", "A defect of the code, with its exact boundary.")
P("C100", "crc32_double_bit crc32c_double_bit crc32c_odd_errors crc32_misses_odd_errors")
P("C101", "crc32_is_polynomial_remainder crc32c_is_polynomial_remainder")
P("C102", "crc32c_documentation_false crc32_documentation", "A defect of the documentation: the theorems state exactly when it is right.")
P("C103", "hex_program_correct")
P("C104", "crc_printer_file crc_printer_count crc_printer_overflow")
P("C105", "compare_files_exact identical_files_printed")
P("C106", "full_names", "A defect of the program, with its exact boundary.")
P("C107", "diff_output runs_are_maximal diff_silent diff_reports_block diff_null")
P("C108", "diff_wrong_offset", "A defect of the program: together with diff_output the exact lines it prints instead.")
P("C109", "stringlist_add_dup_history")
P("C110", "stringlist_foreach_correct")
P("C111", "sptrlist_correct")
P("C112", "sblist_sort_correct", "qsort by its ISO C contract.")
P("C113", "stringptrlist_freeall_correct")
P("C114", "fileparser_close_correct fileparser_cycles fileparser_descriptor_zero")
P("C115", "op_printall_correct")
P("C116", "stdio_puts stdio_perror stdio_fprintf", "Defects of the header, with their exact boundaries.")
P("C117", "codedup_correct codedup_lines", "The containers by their properties C36, C40, C41, C83; allocations succeed.")
P("C118", "codedup_end_missed codedup_end_boundary codedup_silent codedup_skip_bug", "Defects, with their exact boundaries.")
P("C119", "codedup_zero_hangs")
P("C120", "codedup_isspace_bug")
P("C121", "codedup_end_option codedup_long_line")
P("C122", "readline_any_system readline_good_system")
P("C123", "readline_short_reads", "A defect.")
P("C124", "fromfile_swallows_errors", "A defect.")
P("C125", "ibmap_is_map ibmap_insert_outcomes")
P("C126", "ibmap_never_reuses ibmap_index_wraps", "A defect.")
P("C127", "bmap_fini_exact ibmap_fini_exact ibmap_fini_double_free")
P("C128", "samefiles_correct samefiles_terminates")
P("C129", "samefiles_stops", "A defect.")
P("C130", "psp_normalize_correct psp_normalize_refuses")
P("C131", "psp_normalize_again", "The exception is a defect.")
P("C132", "sblist_lifetime_frees sblist_blocks sblist_free_twice hashlist_lifetime_frees")
P("C133", "stringptr_replace_leaks stringptr_replace_refused_first stringptr_replace_memory", "A defect.")
P("C134", "stringptr_replace_memory stringptr_replace_uninitialised stringptr_replace_uninitialised_case", "A defect.")
P("C135", "filelist_search_blocks filelist_search_blocks_success filelist_search_leaks", "A defect.")
P("C136", "listing_correct listing_count")
P("C137", "listing_total")
P("C138", "listing_empty_argument listing_no_memory", "Defects.")
P("C139", "log_put_calls log_puts_calls log_puterror_calls fprintf_calls")
P("C140", "log_put_arrives log_put_hole fprintf_arrives", "The hole is a defect.")
P("C141", "log_put_torn fprintf_whole", "Each call of write is taken to be atomic, which is the best case.")
P("C142", "process_close_exited process_close_killed process_close_failed", "The last two are defects. The encoding of the status is that of Linux.")
P("C143", "printable_class c_printable_class sh_printable_class class_nodup")
P("C144", "sblist_add_own sblist_set_own sblist_insert_own sblist_pop_add sblist_insert_sorted_own alias_outside", "Defects (undocumented preconditions). Copying an item onto itself is undefined because memcpy is used.")
P("C145", "tglist_add_own tglist_insert_own tglist_add_last tglist_add_last_full alias_outside_tglist", "The wrong cases are defects of macros that evaluate their argument late.")
P("C146", "ini_lookup_text ini_lookup_lines ini_lookup", "If all lines can be added to the list.")
P("C147", "ini_crlf ini_name_with_bracket ini_key_with_equals ini_key_with_equals_lookup", "Defects.")
P("C148", "hbmap_foreach_delete_if hbmap_foreach_delete_all hbmap_foreach_delete_skips", "The documented loop is right; the third theorem is the exact effect of the loop the header warns about.")
P("C149", "tglist_owned_frees tglist_items_stay tgilist_owned_frees tgilist_deleted_item_freed_twice", "The last theorem is the exact difference between tglist and tgilist.")
P("C150", "bmap_owned_frees bmap_owned_frees_all hbmap_owned_frees hbmap_owned_stay", "For pointers as keys and values; hbmap_insert of a new key is hbmap_insert_nocheck.")
P("C151", "bmap_insert_leaks bmap_insert_leak_witness", "Defect.")
P("C152", "hbmap_new_buckets hbmap_new_refused", "The overflow is a defect.")
P("C153", "tgilist_signed_refines_list tgilist_signed_reach tgilist_short_limit", "The header's remark about short and 64K values is wrong for two's complement types.")
P("C154", "lists_interchangeable", "Allocation succeeds; fewer than 2^32 calls (tlist) and no more than the index type has values (tgilist).")
P("C155", "tlist_worst_case", "The header's O(log N) is an expectation over the priorities, which are the same in every run. Recursion depth is what is counted.")
P("C156", "bmap_is_multimap bmap_multimap_deletions", "Default value list (tglist).")
P("C157", "bmap_any_comparison", "For a comparison function that is no order ISO C leaves bsearch undefined; assumed is only that it returns an element of the array or NULL.")
P("C158", "mktempdir_concurrent", "mkdir is atomic (POSIX); a process removes only its own directory, others remove none.")
P("C159", "mktempdir_same_names mktempdir_blocked", "rand is seeded by the caller or not at all.")
P("C160", "follow_whole_lines", "The file starts empty; read and lseek succeed.")
P("C161", "follow_exact follow_loses_bytes follow_rest", "Defect: fpos is advanced for a line feed that is not there.")
P("C162", "save_steps save_crash_points", "every crash point leaves the old content, or exactly the transferred part of the new; both contents are lost in between (negative)")
P("C163", "save_concurrent save_concurrent_same save_concurrent_mixed save_concurrent_hole", "equal texts are safe under every schedule; different texts can be mixed and can leave a hole (negative)")
P("C164", "ssalloc_counters ssalloc_debug ssalloc_test_passes ssalloc_test_general", "counters and bit array after every history; DEBUG aborts exactly at pointers that are not live; the test program passes for all random numbers")
P("C165", "process_writers process_close_returns_iff process_close_effect process_all_closed process_close_reverse", "exact: process_close returns iff all later processes were closed before (the pipes are inherited by later children); closing in reverse order always works")
P("C166", "crc_init_sequential crc_init_race crc_init_one_done crc_init_too_early", "Stores and loads are atomic in the model (ISO C leaves the race undefined). crc_init_too_early is negative: a caller that does not wait for a thread to return from InitTables gets wrong CRCs.")
P("C167", "base64dec_overlap base64enc_overlap raw2hex_overlap hex2raw_overlap rc4_overlap base64dec_in_place base64enc_in_place raw2hex_in_place hex2raw_in_place", "Equality with the separate-object models, undefined behaviour included.")
P("C168", "overlap_bounds_tight rc4_behind_iff", "Witnesses that the bounds of C167 are tight; for rc4 the exact condition for every distance.")
P("C169", "rc4_same_keys rc4_long_key rc4_repeated_key", "Equality of the whole outcome, undefined behaviour included. No claim that other keys differ.")
P("C170", "rc4_n_one ciphersaber_2_decrypts ciphersaber_1_decrypts ciphersaber_aborts_iff ciphersaber_iv_ignored rc4_n_zero", "Assertions enabled (NDEBUG not defined).")
P("C171", "rc4_test_prints rc4_test_overflow", "Together the exact limit on the argument.")
P("C172", "crypto_hash_correct crypto_hash_small sha512_to_str_correct sha512_selftest_passes", "for all messages below 2^64 bytes; the self-test for all random bytes and all initial contents of the arrays")
P("C173", "sha512_hash_correct sha512_hash_full_reads sha512_hash_short_reads sha512_hash_fails sha512_test_prints sha512_test_null", "positive for reads that deliver whole blocks; negative for short reads (two files with one digest) and for empty or unreadable files (null dereference)")
P("C174", "sblist_from_data_refines sblist_from_data_fixed", "for every memory size, also no multiple of the item size; any allocation failures")
P("C175", "sblist_from_short_data_dangles sblist_from_foreign_data_free sblist_from_data_free", "negative: memory below one item on systems where realloc(p, 0) frees; sblist_free on memory that is not the allocator's")
P("C176", "nextsection_prints nextsection_clean nextsection_complete nextsection_stops nextsection_null", "partly negative: the loop ends at the first section of the name with no lines, and a missing file is a null dereference")
P("C177", "tlist_insert_wraps tlist_every_size", "negative: the 32-bit count wraps to 0 without an error")
P("C178", "sblist_iter_visits sblist_iter_delete sblist_iter_delete_skips tglist_foreach_delete", "partly negative: a loop that deletes without stepping back misses items exactly if two neighbours are to be deleted")
P("C179", "sblist_iter_worklist", "")
P("C180", "hbmap_any_hash hbmap_one_bucket hbmap_split_keys", "partly negative: keys that compare equal but fall into different buckets are different keys to the map")
P("C181", "normalizepath_cstr_overlap normalizepath_cstr_inplace normalizepath_cstr_inplace_fail normalizepath_cstr_behind", "partly negative: a failing call in place may change the path; an output inside the path overruns every object")
P("C182", "fileparser_test_prints fileparser_test_copies fileparser_test_runs fileparser_test_silent stringptr_test1_saves", "partly negative: stops silently at a line of 1024 bytes; prints nothing from a pipe")
P("C183", "strmap_is_map strmap_key_changed strmap_one_buffer", "partly negative: a key string that changes, or one buffer used for all keys, breaks the map")
P("C184", "bmap_bench_result bmap_bench_runs hbmap_bench_result hbmap_bench_overflows hbmap_bench_hash", "partly negative: hbmap_bench overflows an int for usual values of rand(); both leak one string per round")
P("C185", "process_open_low_pipe process_open_iff_std daemon_process_open", "partly negative: process_open fails whenever one of the descriptors 0, 1 and 2 is closed in the caller")
P("C186", "strtoint64_text strtoint_text ipv4_accepted", "partly negative: texts of 19 and more characters are always undefined behaviour")
P("C187", "base64dec_frame base64dec_too_long base64dec_long_refused base64enc_str_frame readline_userbuf_frame normalizepath_cstr_frame normalizepath_cstr_fail_writes psp_normalize_frame", "partly negative: 2^31 symbols overflow the counter of base64dec; a refused path leaves traces in the output")
P("C188", "hstrmap_is_map hstrmap_key_changed hstrmap_one_buffer", "partly negative: an entry whose key string changes is lost under its old string, and under the new one unless both share a bucket")
P("C189", "intcmp_exact intmap_is_map intlist_insert_sorted intlist_insert_overflow intcmp_wrap_side intcmp_wrap_cycle test_bmap_int", "partly negative: keys further apart than 2^31-1 make the comparison of the tests and examples undefined, and wrapping arithmetic makes it no order")
P("C190", "stdin_pieces stdin_pieces_unique stdin_keep stdin_lines stdin_lines_iff stdin_one_byte stdin_huge_size", "partly negative: lines that do not fit, a last line without newline and zero bytes lose text, a buffer of one byte makes the loop endless, a size that is no int makes every input look empty")
P("C191", "sblist_insert_sorted_any sblist_insert_sorted_max sblist_insert_sorted_pure tglist_insert_sorted_any tglist_insert_sorted_pure sblist_bsearch_any sblist_bsearch_pure sblist_buffers tglist_buffers", "termination, safety and number of calls hold for every comparison function, also one with state that contradicts itself; the exact sequence of buffer sizes shows quadratic growth for sblist and linear for tglist")
P("C192", "bmap_insert_present bmap_insert_absent bmap_insert_loop_even bmap_insert_loop_odd bmap_delete_thrice bmap_delete_increment bmap_delete_increment_end hbmap_insert_four bmap_fini_flags min_max_again tglist_add_lazy", "negative: the map macros evaluate KEY and POS several times, with the exact outcome; bmap_fini's flags lack parentheses. hbmap_delete and hbmap_getkey with it++ are unsequenced in C and not modelled")
P("C193", "normalizepath_any_length normalizepath_cstr_any_buffer normalize_room normalizepath_way_too_long getpathdiff_any_length", "exact: the functions are right if and only if the room fits; otherwise they write behind the buffer. Generalises C57 and C58, which assume the path itself fits")
P("C194", "tlist_priorities_distinct tlist_lookup_calls tlist_insert_calls tlist_delete_calls tlist_orders tlist_average_lookup tlist_average_insert tlist_average_delete", "exact number of nested calls for lookup and insertion after every history, bounds from both sides for deletion; averages are over all n! index sequences, not over a distribution of seeds (the seed is fixed). Complements the worst case of C155")
P("C195", "sblist_pointer sblist_pointer_shows sblist_pointer_blocks sblist_pop_pointer tglist_pointer tglist_pointer_shows tlist_pointer", "exact for sblist and tglist; for tlist a deleted item's pointer shows no item unless malloc returns the address again. Sorting in place is not among the calls")
P("C196", "tgilist_pointer tgilist_pointer_room bmap_pointer bmap_pointer_own bmap_pointer_undisturbed hbmap_pointer bmap_tgilist_pointer", "exact; every growth of an array counts as a new buffer, as ISO C has it")
P("C197", "bmap_shared_lookups bmap_serial_lookups bmap_shared_swap hbmap_shared_lookups hbmap_shared_contains hbmap_serial_lookups", "exact; accesses are taken as atomic, the best case; hbmap_contains is treated apart from hbmap_find and hbmap_get, programs that mix them are covered only by the serial theorem")
P("C198", "crc_forge crc_xor crc_combine crc32_same_iff crc32c_same_iff crc32_trailing_zeros crc32c_trailing_zeros crc32_leading_zeros crc32c_leading_zeros", "exact")
P("C199", "md5_length_extension md5_secret_prefix sha512_length_extension digest_collisions_extend", "exact; the SHA-512 part needs the total length below 2^64, as C24")
P("C200", "ssalloc_same_block ssalloc_behind_pool ssalloc_lost_free ssalloc_serial ssalloc_one_thread ssalloc_threads_iff", "steps are atomic and seen by all at once; the exact condition is for threads that only allocate")
P("C201", "base64_texts_of base64_text_count base64dec_terminated_iff base64enc_pieces_iff base64dec_concat_iff", "texts below 2^31 characters, as in C03; base64dec_terminated_iff contradicts the documented zero termination for texts that the encoder does not make")
P("C202", "stringptr_hash_extend stringptr_hash_swap stringptr_hash_flood stringptr_hash_seven hashlist_flooded", "")
P("C203", "sblist_threads_apart sblist_threads_serial sblist_lost_item sblist_behind_block sblist_stale_block sblist_stale_item sblist_half_item sblist_early_item", "")
P("C204", "rc4_same_key rc4_flip rc4_pieces_iff rc4_period rc4_second_byte", "")
P("C205", "stringptr_made stringptr_grow_iff stringptr_grow_keeps stringptr_grow_moved stringptr_grow_repair stringptr_grow_room stringptr_grow_fails stringptr_free_history stringptr_shift_grow", "stringptr_grow is plain realloc: the text pointer is not adjusted and the size includes the members")
P("C206", "stringptr_concat_iff stringptrlist_tostring_iff stringptrlist_tostring_dos_iff stringptr_replace_iff sblist_first_block_iff sblist_full_add_iff tglist_growth_fits", "the sums and products of sizes are not checked; the exact limits are proved")
P("C207", "hashlist_bucket_locks hashlist_threads_apart hashlist_lost_bucket hashlist_erased_bucket hashlist_null_bucket hashlist_same_bucket hashlist_lost_item hashlist_stale_block", "safe with a lock per bucket or different buckets; the failures without one are proved")
P("C208", "bitarray_threads_iff bitarray_threads_bytes bitarray_lost_bit bitarray_uninterrupted", "exact condition for programs that use different bits; the lost bit is proved")
P("C209", "sblist_stress_iff sblist_stress_null sblist_stress_overflow sblist_stress_big sblist_stress_each tglist_stress_iff", "passes exactly if the memory suffices; the undefined cases are proved")
P("C210", "kv_history kv_shadowed", "all histories, on the bytes of the list")
P("C211", "sha512_context_safe sha512_context_history sha512_context_reuse sha512_end_again sha512_end_twice_differs md5_context_history", "all sequences of calls on one context")
P("C212", "guard_history guard_alloc_aligned guard_underrun guard_free_other_size guard_test_passes", "all sequences of calls, all sizes and page sizes")
P("C213", "op_get_any gives_any_unique op_get_zero op_hasflag_single op_no_dash op_value_is_flag", "all argument vectors, all names")
P("C214", "mspassed_exact getutime_exact stopwatch_once stopwatch_laps stopwatch_wait sleep_measured modtime_exact modtime_compare", "all clocks, any number of readings")
P("C215", "sblist_aligned sblist_history_aligned tglist_aligned tlist_aligned ssalloc_aligned ssalloc_not_16 stringptr_aligned", "all alignments, sizes, histories")
P("C216", "hashlist_iterate_adding hashlist_iterate_once hashlist_iterate_complete hashlist_iterate_null_stays hashlist_worklist_endless hashlist_worklist_ends", "all bucket counts, sizes, hash functions and histories, while memory is available")
P("C217", "ssalloc_check ssalloc_check_powers ssalloc_word_bytes ssalloc_word_one ssalloc_word_history ssalloc_word_live ssalloc_word_incomplete ssalloc_word_small ssalloc_word_aligned ssalloc_sum", "all numbers and sizes of elements, word sizes and histories")
P("C218", "readers_parser readers_split readers_list readers_stdin readers_never_agree", "all texts, buffer sizes and successful reads")
P("C219", "process_copy_order process_copy_always process_copy_sometimes process_copy_depends process_copy_poll process_two_outputs process_close_unread_ends process_close_unread process_close_reliable", "all texts, pipe and buffer sizes, schedules and exit codes")
P("C220", "save_read_alone save_read_outcomes save_read_part save_read_mixed save_read_null save_read_forever", "all texts and schedules of the system calls of both processes, with reads cut short at will")
P("C221", "rotate_exact rotate_blind rotate_eof rotate_replaced rotate_shorter rotate_longer", "all histories of changes and calls, all buffers")
P("C222", "tglist_get_outside tglist_set_outside tglist_delete_outside tglist_insert_outside tglist_deleted_readable", "all lists, item sizes and places whose end is below 2^64 bytes")
P("C223", "rc4_box_distinct rc4_box_any rc4_keys_collide rc4_boxes_uneven", "all keys, all tables, all key lengths; no claim that keys shorter than 211 bytes collide")
P("C224", "sortset_table sortset_unsorted sortset_twice", "all comparison functions that are total preorders, all histories and allocation results; that adding at the end breaks it is shown for every comparison function")
P("C225", "coproc_order coproc_always coproc_never coproc_test_program", "all answers, buffer and pipe sizes and schedules; the test program of process.c waits for ever with a process that holds its answer back")
P("C226", "closein_alone closein_exact closein_lost closein_remedy closein_fresh", "all tables and histories; open gives the lowest free descriptor")
P("C227", "normfs_code normfs_one normfs_tree normfs_nodots normfs_dots normfs_missing normfs_refused", "all paths shorter than PATH_MAX and all file systems; no permissions, mount points or limits")
P("C228", "confine_exact confine_escape confine_links", "all paths shorter than PATH_MAX and all file systems")
P("C229", "words_never_missed words_exact words_exact_iff words_missed", "all texts and words; exact limit for words without separators")
P("C230", "logread_lines logread_forge logread_fields logread_numbers", "all messages; every write writes all (C140 for partial writes)")
P("C231", "carry_letters carry_fields carry_fields_count carry_ini", "all data below the 2^31 limit of base64dec's counter")
P("C232", "stamps_sort stamps_same stamps_wrap stamps_negative stamps_date", "all calendar times that localtime_r can give; that localtime_r itself goes back at the end of daylight saving time is outside the library")
P("C233", "search_uc search_star search_uc_passed search_star_passed search_uc_behind search_star_complete_iff", "all texts and needles")
P("C234", "escape_undone_iff escape_table escape_html escape_order escape_doubled", "all strings; memory is granted (C134 for refused memory)")
P("C235", "handles_own handles_closed handles_zero handles_inherit handles_inherit_list handles_memory handles_same", "all answers of open, read, write, lseek and malloc; at every moment of the run")
P("C236", "settings_unique settings_split settings_list settings_resave_split settings_rounds settings_resave_list", "all files; memory is granted and no write fails; file sizes below 2^64")
P("C237", "tgiwrap_machine tgiwrap_memory tgiwrap_added tgiwrap_alias", "unsigned index types (C153 for signed ones); histories whose arrays stay below 2^64 bytes")
P("C238", "mapins_all mapins_once mapins_again", "bodies that only insert; their number of insertions is bounded but the bound is arbitrary; any of them may be refused memory (mapins_again: one insertion that gets it)")
P("C239", "base64enc_str_prefix base64enc_str_through base64enc_str_through_stuck base64_start_exists base64dec_failed", "dst_len is the size of the buffer")
P("C240", "rc4_short_cycle rc4_never_short rc4_next_byte", "steps of the loop of rc4; rc4_next_byte ties them to the output of rc4")
P("C241", "setnum_read setnum_dos setnum_missing", "the file is read with stringptr_fromfile and stringptr_linesplit; no read fails")
P("C242", "joinsplit_iff joinsplit_bordered joinsplit_dos_iff", "the list of the pieces can grow")
P("C243", "doslines_any doslines_dos_iff doslines_unix_iff", "the list of the lines can grow")
P("C244", "swap_back_iff swap_back_absent swap_back_bordered", "memory is granted; the texts are not empty and different")
P("C245", "onepass_same_iff onepass_delete_iff onepass_char", "memory is granted")
P("C246", "scrub_shorter scrub_forever", "memory is granted; the strings of earlier rounds are not freed in the model")
P("C247", "onechar_same onechar_last", "")
