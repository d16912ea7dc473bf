import Verif.Props.Alias
import Verif.Props.Aligned
import Verif.Props.Anylist
import Verif.Props.Badhash
import Verif.Props.Balance
import Verif.Props.Base64
import Verif.Props.Base64small
import Verif.Props.Base64text
import Verif.Props.Bashare
import Verif.Props.Bench
import Verif.Props.Bitarray
import Verif.Props.Bmap
import Verif.Props.Carry
import Verif.Props.Charclass
import Verif.Props.Closein
import Verif.Props.Codedup
import Verif.Props.Confine
import Verif.Props.Coproc
import Verif.Props.Cost
import Verif.Props.Crc
import Verif.Props.CrcForge
import Verif.Props.CrcPoly
import Verif.Props.Crcinit
import Verif.Props.Dialog
import Verif.Props.Doslines
import Verif.Props.Endian
import Verif.Props.Escape
import Verif.Props.Extend
import Verif.Props.Family
import Verif.Props.Filelib
import Verif.Props.Filelist
import Verif.Props.Fileparser
import Verif.Props.Flood
import Verif.Props.Follow
import Verif.Props.Format
import Verif.Props.Fpio
import Verif.Props.Frame
import Verif.Props.Fromdata
import Verif.Props.Guard
import Verif.Props.Guardhist
import Verif.Props.Handles
import Verif.Props.Hashlist
import Verif.Props.Held
import Verif.Props.Hex
import Verif.Props.Hliter
import Verif.Props.Hlshare
import Verif.Props.Hstrmap
import Verif.Props.Ibmap
import Verif.Props.Inifile
import Verif.Props.Iniparser
import Verif.Props.Inplace
import Verif.Props.Ipv4
import Verif.Props.Iter
import Verif.Props.Joinsplit
import Verif.Props.Kvmem
import Verif.Props.Life
import Verif.Props.Linecat
import Verif.Props.Listfiles
import Verif.Props.Logread
import Verif.Props.Macroarg
import Verif.Props.Mapdel
import Verif.Props.Mapins
import Verif.Props.Mapptr
import Verif.Props.Md5
import Verif.Props.Md5Table
import Verif.Props.Misc
import Verif.Props.Multimap
import Verif.Props.Nextsec
import Verif.Props.Normfs
import Verif.Props.Numbers
import Verif.Props.Onechar
import Verif.Props.Onepass
import Verif.Props.Optany
import Verif.Props.Optparser
import Verif.Props.Output
import Verif.Props.Outside
import Verif.Props.Overlap
import Verif.Props.Own
import Verif.Props.Parsetext
import Verif.Props.Pathroom
import Verif.Props.Proc
import Verif.Props.Programs
import Verif.Props.Psp
import Verif.Props.Rc4
import Verif.Props.Rc4cycle
import Verif.Props.Rc4keys
import Verif.Props.Rc4stream
import Verif.Props.Readers
import Verif.Props.Rotate
import Verif.Props.Saber
import Verif.Props.Samefiles
import Verif.Props.Saveread
import Verif.Props.Savers
import Verif.Props.Sblist
import Verif.Props.Sbshare
import Verif.Props.Scrub
import Verif.Props.Search
import Verif.Props.Setnum
import Verif.Props.Settings
import Verif.Props.Sha512
import Verif.Props.Shactx
import Verif.Props.Share
import Verif.Props.Shatest
import Verif.Props.Sizes
import Verif.Props.Sortset
import Verif.Props.Spgrow
import Verif.Props.Ssalloc
import Verif.Props.Ssashare
import Verif.Props.Ssatest
import Verif.Props.Ssaword
import Verif.Props.Stamps
import Verif.Props.Stdin
import Verif.Props.Stopwatch
import Verif.Props.Stress
import Verif.Props.Stringlist
import Verif.Props.Stringptr
import Verif.Props.Stringptrlist
import Verif.Props.Strmap
import Verif.Props.Subcmp
import Verif.Props.Swapback
import Verif.Props.Tempdirs
import Verif.Props.Text
import Verif.Props.Tgisigned
import Verif.Props.Tgiwrap
import Verif.Props.Tglist
import Verif.Props.Timelib
import Verif.Props.Tlimit
import Verif.Props.Tlist
import Verif.Props.Treap
import Verif.Props.Wait
import Verif.Props.Wholefile
import Verif.Props.Words
import Verif.Props.Writes
/-! Axiom audit, generated by tools/manifest.py: the build log lists the axioms of every claimed
theorem (only propext, Classical.choice and Quot.sound may appear). -/
#print axioms Ulz.Props.base64_roundtrip
#print axioms Ulz.Props.base64_roundtrip_empty
#print axioms Ulz.Props.base64enc_correct
#print axioms Ulz.Props.base64enc_needs_bufsize
#print axioms Ulz.Props.base64dec_safe_and_exact
#print axioms Ulz.Props.base64enc_str_correct
#print axioms Ulz.Props.raw2hex_needs_room
#print axioms Ulz.Props.raw2hex_correct
#print axioms Ulz.Props.hex_roundtrip
#print axioms Ulz.Props.hex2raw_value
#print axioms Ulz.Props.hex2raw_safe
#print axioms Ulz.Props.hex2raw_needs_room
#print axioms Ulz.Props.rc4_correct
#print axioms Ulz.Props.rc4_in_place
#print axioms Ulz.Props.rc4_involution
#print axioms Ulz.Props.rc4_prefix
#print axioms Ulz.Props.rc4_empty_key
#print axioms Ulz.Props.uint64ToString_correct
#print axioms Ulz.Props.int64ToString_correct
#print axioms Ulz.Props.uintToString_correct
#print axioms Ulz.Props.intToString_correct
#print axioms Ulz.Props.decimal_fits
#print axioms Ulz.Props.decimal_needs_room
#print axioms Ulz.Props.dec_canonical
#print axioms Ulz.Props.numberToString_correct
#print axioms Ulz.Props.numberToString_rejects
#print axioms Ulz.Props.numberToString_base0
#print axioms Ulz.Props.numberToString_loses_zeros
#print axioms Ulz.Props.numberToString_needs_room
#print axioms Ulz.Props.utoa_correct
#print axioms Ulz.Props.utoa_underrun
#print axioms Ulz.Props.utoa_fits
#print axioms Ulz.Props.itoa_needs_room
#print axioms Ulz.Props.itoa_correct
#print axioms Ulz.Props.itoa_int_min
#print axioms Ulz.Props.itoa_fits
#print axioms Ulz.Props.strtoint64_roundtrip
#print axioms Ulz.Props.strtoint64_overflow
#print axioms Ulz.Props.strtoint_roundtrip
#print axioms Ulz.Props.stringfromipv4_correct
#print axioms Ulz.Props.dotted_fits
#print axioms Ulz.Props.ipv4_roundtrip
#print axioms Ulz.Props.ipv4fromstring_pieces
#print axioms Ulz.Props.isnumericipv4_dotted
#print axioms Ulz.Props.isnumericipv4_iff
#print axioms Ulz.Props.strstr_uc_sound
#print axioms Ulz.Props.strstar_sound
#print axioms Ulz.Props.strstr_uc_exact_of_constant
#print axioms Ulz.Props.strstar_exact_of_constant
#print axioms Ulz.Props.strstr_uc_complete_iff
#print axioms Ulz.Props.strstr_uc_finds_prefix
#print axioms Ulz.Props.findword_sound
#print axioms Ulz.Props.findword_left_boundary
#print axioms Ulz.Props.findword_left_boundary_fails
#print axioms Ulz.Props.char_classes
#print axioms Ulz.Props.case_conversion
#print axioms Ulz.Props.hexval_correct
#print axioms Ulz.Props.containsChar_correct
#print axioms Ulz.Props.containsChar_zero
#print axioms Ulz.Props.strends_correct
#print axioms Ulz.Props.strdup_n_correct
#print axioms Ulz.Props.strdup_n_whole
#print axioms Ulz.Props.sblist_refines_list
#print axioms Ulz.Props.sblist_insert_beyond_end
#print axioms Ulz.Props.sblist_failed_growth
#print axioms Ulz.Props.sblist_insert_sorted_correct
#print axioms Ulz.Props.sblist_bsearch_correct
#print axioms Ulz.Props.sblist_within_capacity
#print axioms Ulz.Props.sblist_from_data_overruns
#print axioms Ulz.Props.sblist_big_items_overrun
#print axioms Ulz.Props.sblist_default_block
#print axioms Ulz.Props.sblist_free_values_wrong
#print axioms Ulz.Props.tlist_refines_list
#print axioms Ulz.Props.tlist_refines_list_from
#print axioms Ulz.Props.tlist_insert_correct
#print axioms Ulz.Props.tlist_get_out_of_range
#print axioms Ulz.Props.tlist_delete_deep_bad_free
#print axioms Ulz.Props.tlist_free_items_deep_bad_free
#print axioms Ulz.Props.tlist_free_items_correct
#print axioms Ulz.Props.tglist_refines_list
#print axioms Ulz.Props.tglist_fails_iff
#print axioms Ulz.Props.tgilist_refines_list
#print axioms Ulz.Props.tgilist_index_wraps
#print axioms Ulz.Props.bmap_is_map
#print axioms Ulz.Props.bmap_insert_index
#print axioms Ulz.Props.bmap_insert_outcomes
#print axioms Ulz.Props.bmap_overwrite_never_fails
#print axioms Ulz.Props.hbmap_is_map
#print axioms Ulz.Props.hbmap_foreach_visits_all
#print axioms Ulz.Props.tglist_free_values_correct
#print axioms Ulz.Props.tglist_insert_sorted_correct
#print axioms Ulz.Props.hashlist_get_correct
#print axioms Ulz.Props.hashlist_add_fails_with_one
#print axioms Ulz.Props.hashlist_next_results
#print axioms Ulz.Props.hashlist_next_visits_all
#print axioms Ulz.Props.kv_find_correct
#print axioms Ulz.Props.kv_find_null
#print axioms Ulz.Props.stringptr_eq_correct
#print axioms Ulz.Props.stringptr_eq_null
#print axioms Ulz.Props.stringptr_contains_correct
#print axioms Ulz.Props.stringptr_here_correct
#print axioms Ulz.Props.stringptr_here_past_end
#print axioms Ulz.Props.stringptr_hash_congr
#print axioms Ulz.Props.stringptr_hash_width_independent
#print axioms Ulz.Props.stringptr_shiftright_correct
#print axioms Ulz.Props.stringptr_shiftleft_correct
#print axioms Ulz.Props.stringptr_shiftleft_zero_needs_room
#print axioms Ulz.Props.stringptr_chomp_correct
#print axioms Ulz.Props.stringptr_rchr_correct
#print axioms Ulz.Props.stringptr_rchr_high_byte
#print axioms Ulz.Props.stringptr_copy_correct
#print axioms Ulz.Props.stringptr_copy_out_of_memory
#print axioms Ulz.Props.stringptr_strdup_correct
#print axioms Ulz.Props.stringptr_concat_correct
#print axioms Ulz.Props.stringptr_splitc_correct
#print axioms Ulz.Props.split_at_char_unique
#print axioms Ulz.Props.keep_everything
#print axioms Ulz.Props.stringptr_splitc_high_delimiter
#print axioms Ulz.Props.stringptr_splitc_needs_room
#print axioms Ulz.Props.stringptr_splits_correct
#print axioms Ulz.Props.split_at_string_unique
#print axioms Ulz.Props.stringptr_splits_empty_delimiter
#print axioms Ulz.Props.stringptr_replace_correct
#print axioms Ulz.Props.stringptr_replace_self
#print axioms Ulz.Props.stringptrlist_tostring_correct
#print axioms Ulz.Props.stringptrlist_tostring_dos_correct
#print axioms Ulz.Props.stringptrlist_lines_roundtrip
#print axioms Ulz.Props.stringptrlist_find_correct
#print axioms Ulz.Props.stringptrlist_find_null
#print axioms Ulz.Props.read_stdin_line_chomp
#print axioms Ulz.Props.read_stdin_line_keep
#print axioms Ulz.Props.stringptr_fromchar_exact
#print axioms Ulz.Props.stringptr_new_correct
#print axioms Ulz.Props.stringptr_new_overflow
#print axioms Ulz.Props.stringptr_hash_is_elf
#print axioms Ulz.Props.stringptrlist_dup_entries_correct
#print axioms Ulz.Props.stringptrlist_freestrings_correct
#print axioms Ulz.Props.stringptrlist_add_strdup_leak
#print axioms Ulz.Props.crc32_correct
#print axioms Ulz.Props.crc32c_correct
#print axioms Ulz.Props.crc_detects_bursts
#print axioms Ulz.Props.crc_detects_byte_errors
#print axioms Ulz.Props.crc32_misses_33_bit_burst
#print axioms Ulz.Props.crc32_residue
#print axioms Ulz.Props.crc32c_residue
#print axioms Ulz.Props.crc_needs_tables
#print axioms Ulz.Props.crc_final_twice
#print axioms Ulz.Props.md5_correct
#print axioms Ulz.Props.md5_needs_16
#print axioms Ulz.Props.md5_running_digest
#print axioms Ulz.Props.md5_digest_size
#print axioms Ulz.Props.md5_constants
#print axioms Ulz.Props.md5str_correct
#print axioms Ulz.Props.md5str_needs_33
#print axioms Ulz.Props.sha512_correct
#print axioms Ulz.Props.sha512_correct_no_last
#print axioms Ulz.Props.sha512_digest_size
#print axioms Ulz.Props.sha512_constants
#print axioms Ulz.Props.sha512_bytewise_updates_wrong
#print axioms Ulz.Props.sha512_any_chunks
#print axioms Ulz.Props.sha512_tails_ignored
#print axioms Ulz.Props.sha512_first_ignored
#print axioms Ulz.Props.normalizepath_correct
#print axioms Ulz.Props.normalize_shorter
#print axioms Ulz.Props.normalizepath_too_long
#print axioms Ulz.Props.normalizepath_relative
#print axioms Ulz.Props.components_unique
#print axioms Ulz.Props.normalizepath_cstr_correct
#print axioms Ulz.Props.normalizepath_idempotent
#print axioms Ulz.Props.getpathdiff_correct
#print axioms Ulz.Props.getpathdiff_starts_with_slash
#print axioms Ulz.Props.getpathdiff_any_length
#print axioms Ulz.Props.getfilename_correct
#print axioms Ulz.Props.getFileExt_correct
#print axioms Ulz.Props.mktempdir_correct
#print axioms Ulz.Props.mktempdir_terminates
#print axioms Ulz.Props.tofile_correct
#print axioms Ulz.Props.fromfile_correct
#print axioms Ulz.Props.file_roundtrip
#print axioms Ulz.Props.content_exists
#print axioms Ulz.Props.readline_userbuf_correct
#print axioms Ulz.Props.readline_correct
#print axioms Ulz.Props.readline_enumerates
#print axioms Ulz.Props.readline_fd0
#print axioms Ulz.Props.getnextlinelength_correct
#print axioms Ulz.Props.get_section_correct
#print axioms Ulz.Props.get_section_first
#print axioms Ulz.Props.get_next_section_visits
#print axioms Ulz.Props.getvalue_at_correct
#print axioms Ulz.Props.getvalue_correct
#print axioms Ulz.Props.file_as_section_correct
#print axioms Ulz.Props.count_sections_correct
#print axioms Ulz.Props.op_get_correct
#print axioms Ulz.Props.gives_unique
#print axioms Ulz.Props.op_get_empty
#print axioms Ulz.Props.op_hasflag_correct
#print axioms Ulz.Props.op_hasflag_dash
#print axioms Ulz.Props.bitarray_set_get
#print axioms Ulz.Props.bitarray_outside
#print axioms Ulz.Props.bitarray_get
#print axioms Ulz.Props.bitarray_get_swapped
#print axioms Ulz.Props.bitarray_size
#print axioms Ulz.Props.bitarray_fits
#print axioms Ulz.Props.bytem_bytel
#print axioms Ulz.Props.byteswap16_bytes
#print axioms Ulz.Props.byteswap16_involution
#print axioms Ulz.Props.byteswap32_bytes
#print axioms Ulz.Props.byteswap32_involution
#print axioms Ulz.Props.byteswap64_bytes
#print axioms Ulz.Props.byteswap64_involution
#print axioms Ulz.Props.le16_in_memory
#print axioms Ulz.Props.le32_in_memory
#print axioms Ulz.Props.ssalloc_history
#print axioms Ulz.Props.ssalloc_live
#print axioms Ulz.Props.ssalloc_disjoint
#print axioms Ulz.Props.ssalloc_free_before
#print axioms Ulz.Props.ssalloc_fails_iff
#print axioms Ulz.Props.ssalloc_full_iff
#print axioms Ulz.Props.ssalloc_incomplete
#print axioms Ulz.Props.guard_alloc_correct
#print axioms Ulz.Props.guard_alloc_fails
#print axioms Ulz.Props.guard_free_exact
#print axioms Ulz.Props.guard_free_leaks
#print axioms Ulz.Props.guard_alloc_wraps
#print axioms Ulz.Props.guard_alloc_wraps_zero
#print axioms Ulz.Props.vsnprintf_correct
#print axioms Ulz.Props.vsnprintf_inside
#print axioms Ulz.Props.vsnprintf_size_zero
#print axioms Ulz.Props.snprintf_d
#print axioms Ulz.Props.snprintf_u
#print axioms Ulz.Props.snprintf_ld
#print axioms Ulz.Props.snprintf_lu
#print axioms Ulz.Props.snprintf_s
#print axioms Ulz.Props.snprintf_c
#print axioms Ulz.Props.snprintf_pct
#print axioms Ulz.Props.snprintf_prec
#print axioms Ulz.Props.snprintf_x
#print axioms Ulz.Props.width_digits
#print axioms Ulz.Props.precision_overrun
#print axioms Ulz.Props.precision_leaks
#print axioms Ulz.Props.format_parses
#print axioms Ulz.Props.vsnprintf_fails
#print axioms Ulz.Props.timespec_diff_correct
#print axioms Ulz.Props.timespec_diff_range
#print axioms Ulz.Props.timespec_diff_laws
#print axioms Ulz.Props.getutime_correct
#print axioms Ulz.Props.mspassed_correct
#print axioms Ulz.Props.msleep_correct
#print axioms Ulz.Props.microsleep_correct
#print axioms Ulz.Props.sleep_negative
#print axioms Ulz.Props.timestamp_correct
#print axioms Ulz.Props.timestamp_overflow_iff
#print axioms Ulz.Props.timestamp_year
#print axioms Ulz.Props.log_timestamp_correct
#print axioms Ulz.Props.log_put_correct
#print axioms Ulz.Props.log_puterror_correct
#print axioms Ulz.Props.fprintf_correct
#print axioms Ulz.Props.fprintf_fails
#print axioms Ulz.Props.stringptr_format_correct
#print axioms Ulz.Props.stringptr_format_fails
#print axioms Ulz.Props.stringptr_tofile_correct
#print axioms Ulz.Props.stringptr_tofile_succeeds
#print axioms Ulz.Props.stringptr_tofile_stuck
#print axioms Ulz.Props.stringptr_tofile_refused
#print axioms Ulz.Props.stringptr_fromfile_correct
#print axioms Ulz.Props.stringptr_fromfile_succeeds
#print axioms Ulz.Props.stringptr_fromfile_shrunk
#print axioms Ulz.Props.stringptr_fromfile_refused
#print axioms Ulz.Props.wholefile_roundtrip
#print axioms Ulz.Props.stringptrlist_tofile_correct
#print axioms Ulz.Props.stringptrlist_tofile_refused
#print axioms Ulz.Props.process_open_fails
#print axioms Ulz.Props.process_open_no_leak
#print axioms Ulz.Props.process_open_succeeds
#print axioms Ulz.Props.process_open_stdin_closed
#print axioms Ulz.Props.process_open_init_fails
#print axioms Ulz.Props.daemonize_correct
#print axioms Ulz.Props.daemonize_no_null
#print axioms Ulz.Props.daemonize_parent
#print axioms Ulz.Props.filelist_search_too_long
#print axioms Ulz.Props.filelist_search_error
#print axioms Ulz.Props.filelist_search_correct
#print axioms Ulz.Props.filelist_search_memory
#print axioms Ulz.Props.filelist_search_nameless
#print axioms Ulz.Props.filelist_paths
#print axioms Ulz.Props.filelist_search_null
#print axioms Ulz.Props.escape_literal
#print axioms Ulz.Props.escape_backslash
#print axioms Ulz.Props.escape_shortens
#print axioms Ulz.Props.escape_literal_iff
#print axioms Ulz.Props.crc32_double_bit
#print axioms Ulz.Props.crc32c_double_bit
#print axioms Ulz.Props.crc32c_odd_errors
#print axioms Ulz.Props.crc32_misses_odd_errors
#print axioms Ulz.Props.crc32_is_polynomial_remainder
#print axioms Ulz.Props.crc32c_is_polynomial_remainder
#print axioms Ulz.Props.crc32c_documentation_false
#print axioms Ulz.Props.crc32_documentation
#print axioms Ulz.Props.hex_program_correct
#print axioms Ulz.Props.crc_printer_file
#print axioms Ulz.Props.crc_printer_count
#print axioms Ulz.Props.crc_printer_overflow
#print axioms Ulz.Props.compare_files_exact
#print axioms Ulz.Props.identical_files_printed
#print axioms Ulz.Props.full_names
#print axioms Ulz.Props.diff_output
#print axioms Ulz.Props.runs_are_maximal
#print axioms Ulz.Props.diff_silent
#print axioms Ulz.Props.diff_reports_block
#print axioms Ulz.Props.diff_null
#print axioms Ulz.Props.diff_wrong_offset
#print axioms Ulz.Props.stringlist_add_dup_history
#print axioms Ulz.Props.stringlist_foreach_correct
#print axioms Ulz.Props.sptrlist_correct
#print axioms Ulz.Props.sblist_sort_correct
#print axioms Ulz.Props.stringptrlist_freeall_correct
#print axioms Ulz.Props.fileparser_close_correct
#print axioms Ulz.Props.fileparser_cycles
#print axioms Ulz.Props.fileparser_descriptor_zero
#print axioms Ulz.Props.op_printall_correct
#print axioms Ulz.Props.stdio_puts
#print axioms Ulz.Props.stdio_perror
#print axioms Ulz.Props.stdio_fprintf
#print axioms Ulz.Props.codedup_correct
#print axioms Ulz.Props.codedup_lines
#print axioms Ulz.Props.codedup_end_missed
#print axioms Ulz.Props.codedup_end_boundary
#print axioms Ulz.Props.codedup_silent
#print axioms Ulz.Props.codedup_skip_bug
#print axioms Ulz.Props.codedup_zero_hangs
#print axioms Ulz.Props.codedup_isspace_bug
#print axioms Ulz.Props.codedup_end_option
#print axioms Ulz.Props.codedup_long_line
#print axioms Ulz.Props.readline_any_system
#print axioms Ulz.Props.readline_good_system
#print axioms Ulz.Props.readline_short_reads
#print axioms Ulz.Props.fromfile_swallows_errors
#print axioms Ulz.Props.ibmap_is_map
#print axioms Ulz.Props.ibmap_insert_outcomes
#print axioms Ulz.Props.ibmap_never_reuses
#print axioms Ulz.Props.ibmap_index_wraps
#print axioms Ulz.Props.bmap_fini_exact
#print axioms Ulz.Props.ibmap_fini_exact
#print axioms Ulz.Props.ibmap_fini_double_free
#print axioms Ulz.Props.samefiles_correct
#print axioms Ulz.Props.samefiles_terminates
#print axioms Ulz.Props.samefiles_stops
#print axioms Ulz.Props.psp_normalize_correct
#print axioms Ulz.Props.psp_normalize_refuses
#print axioms Ulz.Props.psp_normalize_again
#print axioms Ulz.Props.sblist_lifetime_frees
#print axioms Ulz.Props.sblist_blocks
#print axioms Ulz.Props.sblist_free_twice
#print axioms Ulz.Props.hashlist_lifetime_frees
#print axioms Ulz.Props.stringptr_replace_leaks
#print axioms Ulz.Props.stringptr_replace_refused_first
#print axioms Ulz.Props.stringptr_replace_memory
#print axioms Ulz.Props.stringptr_replace_uninitialised
#print axioms Ulz.Props.stringptr_replace_uninitialised_case
#print axioms Ulz.Props.filelist_search_blocks
#print axioms Ulz.Props.filelist_search_blocks_success
#print axioms Ulz.Props.filelist_search_leaks
#print axioms Ulz.Props.listing_correct
#print axioms Ulz.Props.listing_count
#print axioms Ulz.Props.listing_total
#print axioms Ulz.Props.listing_empty_argument
#print axioms Ulz.Props.listing_no_memory
#print axioms Ulz.Props.log_put_calls
#print axioms Ulz.Props.log_puts_calls
#print axioms Ulz.Props.log_puterror_calls
#print axioms Ulz.Props.fprintf_calls
#print axioms Ulz.Props.log_put_arrives
#print axioms Ulz.Props.log_put_hole
#print axioms Ulz.Props.fprintf_arrives
#print axioms Ulz.Props.log_put_torn
#print axioms Ulz.Props.fprintf_whole
#print axioms Ulz.Props.process_close_exited
#print axioms Ulz.Props.process_close_killed
#print axioms Ulz.Props.process_close_failed
#print axioms Ulz.Props.printable_class
#print axioms Ulz.Props.c_printable_class
#print axioms Ulz.Props.sh_printable_class
#print axioms Ulz.Props.class_nodup
#print axioms Ulz.Props.sblist_add_own
#print axioms Ulz.Props.sblist_set_own
#print axioms Ulz.Props.sblist_insert_own
#print axioms Ulz.Props.sblist_pop_add
#print axioms Ulz.Props.sblist_insert_sorted_own
#print axioms Ulz.Props.alias_outside
#print axioms Ulz.Props.tglist_add_own
#print axioms Ulz.Props.tglist_insert_own
#print axioms Ulz.Props.tglist_add_last
#print axioms Ulz.Props.tglist_add_last_full
#print axioms Ulz.Props.alias_outside_tglist
#print axioms Ulz.Props.ini_lookup_text
#print axioms Ulz.Props.ini_lookup_lines
#print axioms Ulz.Props.ini_lookup
#print axioms Ulz.Props.ini_crlf
#print axioms Ulz.Props.ini_name_with_bracket
#print axioms Ulz.Props.ini_key_with_equals
#print axioms Ulz.Props.ini_key_with_equals_lookup
#print axioms Ulz.Props.hbmap_foreach_delete_if
#print axioms Ulz.Props.hbmap_foreach_delete_all
#print axioms Ulz.Props.hbmap_foreach_delete_skips
#print axioms Ulz.Props.tglist_owned_frees
#print axioms Ulz.Props.tglist_items_stay
#print axioms Ulz.Props.tgilist_owned_frees
#print axioms Ulz.Props.tgilist_deleted_item_freed_twice
#print axioms Ulz.Props.bmap_owned_frees
#print axioms Ulz.Props.bmap_owned_frees_all
#print axioms Ulz.Props.hbmap_owned_frees
#print axioms Ulz.Props.hbmap_owned_stay
#print axioms Ulz.Props.bmap_insert_leaks
#print axioms Ulz.Props.bmap_insert_leak_witness
#print axioms Ulz.Props.hbmap_new_buckets
#print axioms Ulz.Props.hbmap_new_refused
#print axioms Ulz.Props.tgilist_signed_refines_list
#print axioms Ulz.Props.tgilist_signed_reach
#print axioms Ulz.Props.tgilist_short_limit
#print axioms Ulz.Props.lists_interchangeable
#print axioms Ulz.Props.tlist_worst_case
#print axioms Ulz.Props.bmap_is_multimap
#print axioms Ulz.Props.bmap_multimap_deletions
#print axioms Ulz.Props.bmap_any_comparison
#print axioms Ulz.Props.mktempdir_concurrent
#print axioms Ulz.Props.mktempdir_same_names
#print axioms Ulz.Props.mktempdir_blocked
#print axioms Ulz.Props.follow_whole_lines
#print axioms Ulz.Props.follow_exact
#print axioms Ulz.Props.follow_loses_bytes
#print axioms Ulz.Props.follow_rest
#print axioms Ulz.Props.save_steps
#print axioms Ulz.Props.save_crash_points
#print axioms Ulz.Props.save_concurrent
#print axioms Ulz.Props.save_concurrent_same
#print axioms Ulz.Props.save_concurrent_mixed
#print axioms Ulz.Props.save_concurrent_hole
#print axioms Ulz.Props.ssalloc_counters
#print axioms Ulz.Props.ssalloc_debug
#print axioms Ulz.Props.ssalloc_test_passes
#print axioms Ulz.Props.ssalloc_test_general
#print axioms Ulz.Props.process_writers
#print axioms Ulz.Props.process_close_returns_iff
#print axioms Ulz.Props.process_close_effect
#print axioms Ulz.Props.process_all_closed
#print axioms Ulz.Props.process_close_reverse
#print axioms Ulz.Props.crc_init_sequential
#print axioms Ulz.Props.crc_init_race
#print axioms Ulz.Props.crc_init_one_done
#print axioms Ulz.Props.crc_init_too_early
#print axioms Ulz.Props.base64dec_overlap
#print axioms Ulz.Props.base64enc_overlap
#print axioms Ulz.Props.raw2hex_overlap
#print axioms Ulz.Props.hex2raw_overlap
#print axioms Ulz.Props.rc4_overlap
#print axioms Ulz.Props.base64dec_in_place
#print axioms Ulz.Props.base64enc_in_place
#print axioms Ulz.Props.raw2hex_in_place
#print axioms Ulz.Props.hex2raw_in_place
#print axioms Ulz.Props.overlap_bounds_tight
#print axioms Ulz.Props.rc4_behind_iff
#print axioms Ulz.Props.rc4_same_keys
#print axioms Ulz.Props.rc4_long_key
#print axioms Ulz.Props.rc4_repeated_key
#print axioms Ulz.Props.rc4_n_one
#print axioms Ulz.Props.ciphersaber_2_decrypts
#print axioms Ulz.Props.ciphersaber_1_decrypts
#print axioms Ulz.Props.ciphersaber_aborts_iff
#print axioms Ulz.Props.ciphersaber_iv_ignored
#print axioms Ulz.Props.rc4_n_zero
#print axioms Ulz.Props.rc4_test_prints
#print axioms Ulz.Props.rc4_test_overflow
#print axioms Ulz.Props.crypto_hash_correct
#print axioms Ulz.Props.crypto_hash_small
#print axioms Ulz.Props.sha512_to_str_correct
#print axioms Ulz.Props.sha512_selftest_passes
#print axioms Ulz.Props.sha512_hash_correct
#print axioms Ulz.Props.sha512_hash_full_reads
#print axioms Ulz.Props.sha512_hash_short_reads
#print axioms Ulz.Props.sha512_hash_fails
#print axioms Ulz.Props.sha512_test_prints
#print axioms Ulz.Props.sha512_test_null
#print axioms Ulz.Props.sblist_from_data_refines
#print axioms Ulz.Props.sblist_from_data_fixed
#print axioms Ulz.Props.sblist_from_short_data_dangles
#print axioms Ulz.Props.sblist_from_foreign_data_free
#print axioms Ulz.Props.sblist_from_data_free
#print axioms Ulz.Props.nextsection_prints
#print axioms Ulz.Props.nextsection_clean
#print axioms Ulz.Props.nextsection_complete
#print axioms Ulz.Props.nextsection_stops
#print axioms Ulz.Props.nextsection_null
#print axioms Ulz.Props.tlist_insert_wraps
#print axioms Ulz.Props.tlist_every_size
#print axioms Ulz.Props.sblist_iter_visits
#print axioms Ulz.Props.sblist_iter_delete
#print axioms Ulz.Props.sblist_iter_delete_skips
#print axioms Ulz.Props.tglist_foreach_delete
#print axioms Ulz.Props.sblist_iter_worklist
#print axioms Ulz.Props.hbmap_any_hash
#print axioms Ulz.Props.hbmap_one_bucket
#print axioms Ulz.Props.hbmap_split_keys
#print axioms Ulz.Props.normalizepath_cstr_overlap
#print axioms Ulz.Props.normalizepath_cstr_inplace
#print axioms Ulz.Props.normalizepath_cstr_inplace_fail
#print axioms Ulz.Props.normalizepath_cstr_behind
#print axioms Ulz.Props.fileparser_test_prints
#print axioms Ulz.Props.fileparser_test_copies
#print axioms Ulz.Props.fileparser_test_runs
#print axioms Ulz.Props.fileparser_test_silent
#print axioms Ulz.Props.stringptr_test1_saves
#print axioms Ulz.Props.strmap_is_map
#print axioms Ulz.Props.strmap_key_changed
#print axioms Ulz.Props.strmap_one_buffer
#print axioms Ulz.Props.bmap_bench_result
#print axioms Ulz.Props.bmap_bench_runs
#print axioms Ulz.Props.hbmap_bench_result
#print axioms Ulz.Props.hbmap_bench_overflows
#print axioms Ulz.Props.hbmap_bench_hash
#print axioms Ulz.Props.process_open_low_pipe
#print axioms Ulz.Props.process_open_iff_std
#print axioms Ulz.Props.daemon_process_open
#print axioms Ulz.Props.strtoint64_text
#print axioms Ulz.Props.strtoint_text
#print axioms Ulz.Props.ipv4_accepted
#print axioms Ulz.Props.base64dec_frame
#print axioms Ulz.Props.base64dec_too_long
#print axioms Ulz.Props.base64dec_long_refused
#print axioms Ulz.Props.base64enc_str_frame
#print axioms Ulz.Props.readline_userbuf_frame
#print axioms Ulz.Props.normalizepath_cstr_frame
#print axioms Ulz.Props.normalizepath_cstr_fail_writes
#print axioms Ulz.Props.psp_normalize_frame
#print axioms Ulz.Props.hstrmap_is_map
#print axioms Ulz.Props.hstrmap_key_changed
#print axioms Ulz.Props.hstrmap_one_buffer
#print axioms Ulz.Props.intcmp_exact
#print axioms Ulz.Props.intmap_is_map
#print axioms Ulz.Props.intlist_insert_sorted
#print axioms Ulz.Props.intlist_insert_overflow
#print axioms Ulz.Props.intcmp_wrap_side
#print axioms Ulz.Props.intcmp_wrap_cycle
#print axioms Ulz.Props.test_bmap_int
#print axioms Ulz.Props.stdin_pieces
#print axioms Ulz.Props.stdin_pieces_unique
#print axioms Ulz.Props.stdin_keep
#print axioms Ulz.Props.stdin_lines
#print axioms Ulz.Props.stdin_lines_iff
#print axioms Ulz.Props.stdin_one_byte
#print axioms Ulz.Props.stdin_huge_size
#print axioms Ulz.Props.sblist_insert_sorted_any
#print axioms Ulz.Props.sblist_insert_sorted_max
#print axioms Ulz.Props.sblist_insert_sorted_pure
#print axioms Ulz.Props.tglist_insert_sorted_any
#print axioms Ulz.Props.tglist_insert_sorted_pure
#print axioms Ulz.Props.sblist_bsearch_any
#print axioms Ulz.Props.sblist_bsearch_pure
#print axioms Ulz.Props.sblist_buffers
#print axioms Ulz.Props.tglist_buffers
#print axioms Ulz.Props.bmap_insert_present
#print axioms Ulz.Props.bmap_insert_absent
#print axioms Ulz.Props.bmap_insert_loop_even
#print axioms Ulz.Props.bmap_insert_loop_odd
#print axioms Ulz.Props.bmap_delete_thrice
#print axioms Ulz.Props.bmap_delete_increment
#print axioms Ulz.Props.bmap_delete_increment_end
#print axioms Ulz.Props.hbmap_insert_four
#print axioms Ulz.Props.bmap_fini_flags
#print axioms Ulz.Props.min_max_again
#print axioms Ulz.Props.tglist_add_lazy
#print axioms Ulz.Props.normalizepath_any_length
#print axioms Ulz.Props.normalizepath_cstr_any_buffer
#print axioms Ulz.Props.normalize_room
#print axioms Ulz.Props.normalizepath_way_too_long
#print axioms Ulz.Props.tlist_priorities_distinct
#print axioms Ulz.Props.tlist_lookup_calls
#print axioms Ulz.Props.tlist_insert_calls
#print axioms Ulz.Props.tlist_delete_calls
#print axioms Ulz.Props.tlist_orders
#print axioms Ulz.Props.tlist_average_lookup
#print axioms Ulz.Props.tlist_average_insert
#print axioms Ulz.Props.tlist_average_delete
#print axioms Ulz.Props.sblist_pointer
#print axioms Ulz.Props.sblist_pointer_shows
#print axioms Ulz.Props.sblist_pointer_blocks
#print axioms Ulz.Props.sblist_pop_pointer
#print axioms Ulz.Props.tglist_pointer
#print axioms Ulz.Props.tglist_pointer_shows
#print axioms Ulz.Props.tlist_pointer
#print axioms Ulz.Props.tgilist_pointer
#print axioms Ulz.Props.tgilist_pointer_room
#print axioms Ulz.Props.bmap_pointer
#print axioms Ulz.Props.bmap_pointer_own
#print axioms Ulz.Props.bmap_pointer_undisturbed
#print axioms Ulz.Props.hbmap_pointer
#print axioms Ulz.Props.bmap_tgilist_pointer
#print axioms Ulz.Props.bmap_shared_lookups
#print axioms Ulz.Props.bmap_serial_lookups
#print axioms Ulz.Props.bmap_shared_swap
#print axioms Ulz.Props.hbmap_shared_lookups
#print axioms Ulz.Props.hbmap_shared_contains
#print axioms Ulz.Props.hbmap_serial_lookups
#print axioms Ulz.Props.crc_forge
#print axioms Ulz.Props.crc_xor
#print axioms Ulz.Props.crc_combine
#print axioms Ulz.Props.crc32_same_iff
#print axioms Ulz.Props.crc32c_same_iff
#print axioms Ulz.Props.crc32_trailing_zeros
#print axioms Ulz.Props.crc32c_trailing_zeros
#print axioms Ulz.Props.crc32_leading_zeros
#print axioms Ulz.Props.crc32c_leading_zeros
#print axioms Ulz.Props.md5_length_extension
#print axioms Ulz.Props.md5_secret_prefix
#print axioms Ulz.Props.sha512_length_extension
#print axioms Ulz.Props.digest_collisions_extend
#print axioms Ulz.Props.ssalloc_same_block
#print axioms Ulz.Props.ssalloc_behind_pool
#print axioms Ulz.Props.ssalloc_lost_free
#print axioms Ulz.Props.ssalloc_serial
#print axioms Ulz.Props.ssalloc_one_thread
#print axioms Ulz.Props.ssalloc_threads_iff
#print axioms Ulz.Props.base64_texts_of
#print axioms Ulz.Props.base64_text_count
#print axioms Ulz.Props.base64dec_terminated_iff
#print axioms Ulz.Props.base64enc_pieces_iff
#print axioms Ulz.Props.base64dec_concat_iff
#print axioms Ulz.Props.stringptr_hash_extend
#print axioms Ulz.Props.stringptr_hash_swap
#print axioms Ulz.Props.stringptr_hash_flood
#print axioms Ulz.Props.stringptr_hash_seven
#print axioms Ulz.Props.hashlist_flooded
#print axioms Ulz.Props.sblist_threads_apart
#print axioms Ulz.Props.sblist_threads_serial
#print axioms Ulz.Props.sblist_lost_item
#print axioms Ulz.Props.sblist_behind_block
#print axioms Ulz.Props.sblist_stale_block
#print axioms Ulz.Props.sblist_stale_item
#print axioms Ulz.Props.sblist_half_item
#print axioms Ulz.Props.sblist_early_item
#print axioms Ulz.Props.rc4_same_key
#print axioms Ulz.Props.rc4_flip
#print axioms Ulz.Props.rc4_pieces_iff
#print axioms Ulz.Props.rc4_period
#print axioms Ulz.Props.rc4_second_byte
#print axioms Ulz.Props.stringptr_made
#print axioms Ulz.Props.stringptr_grow_iff
#print axioms Ulz.Props.stringptr_grow_keeps
#print axioms Ulz.Props.stringptr_grow_moved
#print axioms Ulz.Props.stringptr_grow_repair
#print axioms Ulz.Props.stringptr_grow_room
#print axioms Ulz.Props.stringptr_grow_fails
#print axioms Ulz.Props.stringptr_free_history
#print axioms Ulz.Props.stringptr_shift_grow
#print axioms Ulz.Props.stringptr_concat_iff
#print axioms Ulz.Props.stringptrlist_tostring_iff
#print axioms Ulz.Props.stringptrlist_tostring_dos_iff
#print axioms Ulz.Props.stringptr_replace_iff
#print axioms Ulz.Props.sblist_first_block_iff
#print axioms Ulz.Props.sblist_full_add_iff
#print axioms Ulz.Props.tglist_growth_fits
#print axioms Ulz.Props.hashlist_bucket_locks
#print axioms Ulz.Props.hashlist_threads_apart
#print axioms Ulz.Props.hashlist_lost_bucket
#print axioms Ulz.Props.hashlist_erased_bucket
#print axioms Ulz.Props.hashlist_null_bucket
#print axioms Ulz.Props.hashlist_same_bucket
#print axioms Ulz.Props.hashlist_lost_item
#print axioms Ulz.Props.hashlist_stale_block
#print axioms Ulz.Props.bitarray_threads_iff
#print axioms Ulz.Props.bitarray_threads_bytes
#print axioms Ulz.Props.bitarray_lost_bit
#print axioms Ulz.Props.bitarray_uninterrupted
#print axioms Ulz.Props.sblist_stress_iff
#print axioms Ulz.Props.sblist_stress_null
#print axioms Ulz.Props.sblist_stress_overflow
#print axioms Ulz.Props.sblist_stress_big
#print axioms Ulz.Props.sblist_stress_each
#print axioms Ulz.Props.tglist_stress_iff
#print axioms Ulz.Props.kv_history
#print axioms Ulz.Props.kv_shadowed
#print axioms Ulz.Props.sha512_context_safe
#print axioms Ulz.Props.sha512_context_history
#print axioms Ulz.Props.sha512_context_reuse
#print axioms Ulz.Props.sha512_end_again
#print axioms Ulz.Props.sha512_end_twice_differs
#print axioms Ulz.Props.md5_context_history
#print axioms Ulz.Props.guard_history
#print axioms Ulz.Props.guard_alloc_aligned
#print axioms Ulz.Props.guard_underrun
#print axioms Ulz.Props.guard_free_other_size
#print axioms Ulz.Props.guard_test_passes
#print axioms Ulz.Props.op_get_any
#print axioms Ulz.Props.gives_any_unique
#print axioms Ulz.Props.op_get_zero
#print axioms Ulz.Props.op_hasflag_single
#print axioms Ulz.Props.op_no_dash
#print axioms Ulz.Props.op_value_is_flag
#print axioms Ulz.Props.mspassed_exact
#print axioms Ulz.Props.getutime_exact
#print axioms Ulz.Props.stopwatch_once
#print axioms Ulz.Props.stopwatch_laps
#print axioms Ulz.Props.stopwatch_wait
#print axioms Ulz.Props.sleep_measured
#print axioms Ulz.Props.modtime_exact
#print axioms Ulz.Props.modtime_compare
#print axioms Ulz.Props.sblist_aligned
#print axioms Ulz.Props.sblist_history_aligned
#print axioms Ulz.Props.tglist_aligned
#print axioms Ulz.Props.tlist_aligned
#print axioms Ulz.Props.ssalloc_aligned
#print axioms Ulz.Props.ssalloc_not_16
#print axioms Ulz.Props.stringptr_aligned
#print axioms Ulz.Props.hashlist_iterate_adding
#print axioms Ulz.Props.hashlist_iterate_once
#print axioms Ulz.Props.hashlist_iterate_complete
#print axioms Ulz.Props.hashlist_iterate_null_stays
#print axioms Ulz.Props.hashlist_worklist_endless
#print axioms Ulz.Props.hashlist_worklist_ends
#print axioms Ulz.Props.ssalloc_check
#print axioms Ulz.Props.ssalloc_check_powers
#print axioms Ulz.Props.ssalloc_word_bytes
#print axioms Ulz.Props.ssalloc_word_one
#print axioms Ulz.Props.ssalloc_word_history
#print axioms Ulz.Props.ssalloc_word_live
#print axioms Ulz.Props.ssalloc_word_incomplete
#print axioms Ulz.Props.ssalloc_word_small
#print axioms Ulz.Props.ssalloc_word_aligned
#print axioms Ulz.Props.ssalloc_sum
#print axioms Ulz.Props.readers_parser
#print axioms Ulz.Props.readers_split
#print axioms Ulz.Props.readers_list
#print axioms Ulz.Props.readers_stdin
#print axioms Ulz.Props.readers_never_agree
#print axioms Ulz.Props.process_copy_order
#print axioms Ulz.Props.process_copy_always
#print axioms Ulz.Props.process_copy_sometimes
#print axioms Ulz.Props.process_copy_depends
#print axioms Ulz.Props.process_copy_poll
#print axioms Ulz.Props.process_two_outputs
#print axioms Ulz.Props.process_close_unread_ends
#print axioms Ulz.Props.process_close_unread
#print axioms Ulz.Props.process_close_reliable
#print axioms Ulz.Props.save_read_alone
#print axioms Ulz.Props.save_read_outcomes
#print axioms Ulz.Props.save_read_part
#print axioms Ulz.Props.save_read_mixed
#print axioms Ulz.Props.save_read_null
#print axioms Ulz.Props.save_read_forever
#print axioms Ulz.Props.rotate_exact
#print axioms Ulz.Props.rotate_blind
#print axioms Ulz.Props.rotate_eof
#print axioms Ulz.Props.rotate_replaced
#print axioms Ulz.Props.rotate_shorter
#print axioms Ulz.Props.rotate_longer
#print axioms Ulz.Props.tglist_get_outside
#print axioms Ulz.Props.tglist_set_outside
#print axioms Ulz.Props.tglist_delete_outside
#print axioms Ulz.Props.tglist_insert_outside
#print axioms Ulz.Props.tglist_deleted_readable
#print axioms Ulz.Props.rc4_box_distinct
#print axioms Ulz.Props.rc4_box_any
#print axioms Ulz.Props.rc4_keys_collide
#print axioms Ulz.Props.rc4_boxes_uneven
#print axioms Ulz.Props.sortset_table
#print axioms Ulz.Props.sortset_unsorted
#print axioms Ulz.Props.sortset_twice
#print axioms Ulz.Props.coproc_order
#print axioms Ulz.Props.coproc_always
#print axioms Ulz.Props.coproc_never
#print axioms Ulz.Props.coproc_test_program
#print axioms Ulz.Props.closein_alone
#print axioms Ulz.Props.closein_exact
#print axioms Ulz.Props.closein_lost
#print axioms Ulz.Props.closein_remedy
#print axioms Ulz.Props.closein_fresh
#print axioms Ulz.Props.normfs_code
#print axioms Ulz.Props.normfs_one
#print axioms Ulz.Props.normfs_tree
#print axioms Ulz.Props.normfs_nodots
#print axioms Ulz.Props.normfs_dots
#print axioms Ulz.Props.normfs_missing
#print axioms Ulz.Props.normfs_refused
#print axioms Ulz.Props.confine_exact
#print axioms Ulz.Props.confine_escape
#print axioms Ulz.Props.confine_links
#print axioms Ulz.Props.words_never_missed
#print axioms Ulz.Props.words_exact
#print axioms Ulz.Props.words_exact_iff
#print axioms Ulz.Props.words_missed
#print axioms Ulz.Props.logread_lines
#print axioms Ulz.Props.logread_forge
#print axioms Ulz.Props.logread_fields
#print axioms Ulz.Props.logread_numbers
#print axioms Ulz.Props.carry_letters
#print axioms Ulz.Props.carry_fields
#print axioms Ulz.Props.carry_fields_count
#print axioms Ulz.Props.carry_ini
#print axioms Ulz.Props.stamps_sort
#print axioms Ulz.Props.stamps_same
#print axioms Ulz.Props.stamps_wrap
#print axioms Ulz.Props.stamps_negative
#print axioms Ulz.Props.stamps_date
#print axioms Ulz.Props.search_uc
#print axioms Ulz.Props.search_star
#print axioms Ulz.Props.search_uc_passed
#print axioms Ulz.Props.search_star_passed
#print axioms Ulz.Props.search_uc_behind
#print axioms Ulz.Props.search_star_complete_iff
#print axioms Ulz.Props.escape_undone_iff
#print axioms Ulz.Props.escape_table
#print axioms Ulz.Props.escape_html
#print axioms Ulz.Props.escape_order
#print axioms Ulz.Props.escape_doubled
#print axioms Ulz.Props.handles_own
#print axioms Ulz.Props.handles_closed
#print axioms Ulz.Props.handles_zero
#print axioms Ulz.Props.handles_inherit
#print axioms Ulz.Props.handles_inherit_list
#print axioms Ulz.Props.handles_memory
#print axioms Ulz.Props.handles_same
#print axioms Ulz.Props.settings_unique
#print axioms Ulz.Props.settings_split
#print axioms Ulz.Props.settings_list
#print axioms Ulz.Props.settings_resave_split
#print axioms Ulz.Props.settings_rounds
#print axioms Ulz.Props.settings_resave_list
#print axioms Ulz.Props.tgiwrap_machine
#print axioms Ulz.Props.tgiwrap_memory
#print axioms Ulz.Props.tgiwrap_added
#print axioms Ulz.Props.tgiwrap_alias
#print axioms Ulz.Props.mapins_all
#print axioms Ulz.Props.mapins_once
#print axioms Ulz.Props.mapins_again
#print axioms Ulz.Props.base64enc_str_prefix
#print axioms Ulz.Props.base64enc_str_through
#print axioms Ulz.Props.base64enc_str_through_stuck
#print axioms Ulz.Props.base64_start_exists
#print axioms Ulz.Props.base64dec_failed
#print axioms Ulz.Props.rc4_short_cycle
#print axioms Ulz.Props.rc4_never_short
#print axioms Ulz.Props.rc4_next_byte
#print axioms Ulz.Props.setnum_read
#print axioms Ulz.Props.setnum_dos
#print axioms Ulz.Props.setnum_missing
#print axioms Ulz.Props.joinsplit_iff
#print axioms Ulz.Props.joinsplit_bordered
#print axioms Ulz.Props.joinsplit_dos_iff
#print axioms Ulz.Props.doslines_any
#print axioms Ulz.Props.doslines_dos_iff
#print axioms Ulz.Props.doslines_unix_iff
#print axioms Ulz.Props.swap_back_iff
#print axioms Ulz.Props.swap_back_absent
#print axioms Ulz.Props.swap_back_bordered
#print axioms Ulz.Props.onepass_same_iff
#print axioms Ulz.Props.onepass_delete_iff
#print axioms Ulz.Props.onepass_char
#print axioms Ulz.Props.scrub_shorter
#print axioms Ulz.Props.scrub_forever
#print axioms Ulz.Props.onechar_same
#print axioms Ulz.Props.onechar_last
