{
 "claims": [
  {
   "property": "C01",
   "status": "proved",
   "theorems": [
    "Ulz.Props.base64_roundtrip",
    "Ulz.Props.base64_roundtrip_empty"
   ],
   "note": ""
  },
  {
   "property": "C02",
   "status": "proved",
   "theorems": [
    "Ulz.Props.base64enc_correct",
    "Ulz.Props.base64enc_needs_bufsize"
   ],
   "note": ""
  },
  {
   "property": "C03",
   "status": "proved",
   "theorems": [
    "Ulz.Props.base64dec_safe_and_exact"
   ],
   "note": ""
  },
  {
   "property": "C04",
   "status": "proved",
   "theorems": [
    "Ulz.Props.base64enc_str_correct"
   ],
   "note": ""
  },
  {
   "property": "C05",
   "status": "proved",
   "theorems": [
    "Ulz.Props.raw2hex_needs_room",
    "Ulz.Props.raw2hex_correct",
    "Ulz.Props.hex_roundtrip"
   ],
   "note": ""
  },
  {
   "property": "C06",
   "status": "proved",
   "theorems": [
    "Ulz.Props.hex2raw_value",
    "Ulz.Props.hex2raw_safe",
    "Ulz.Props.hex2raw_needs_room"
   ],
   "note": ""
  },
  {
   "property": "C07",
   "status": "proved",
   "theorems": [
    "Ulz.Props.rc4_correct",
    "Ulz.Props.rc4_in_place",
    "Ulz.Props.rc4_involution",
    "Ulz.Props.rc4_prefix",
    "Ulz.Props.rc4_empty_key"
   ],
   "note": ""
  },
  {
   "property": "C08",
   "status": "proved",
   "theorems": [
    "Ulz.Props.uint64ToString_correct",
    "Ulz.Props.int64ToString_correct",
    "Ulz.Props.uintToString_correct",
    "Ulz.Props.intToString_correct",
    "Ulz.Props.decimal_fits",
    "Ulz.Props.decimal_needs_room",
    "Ulz.Props.dec_canonical"
   ],
   "note": ""
  },
  {
   "property": "C09",
   "status": "proved",
   "theorems": [
    "Ulz.Props.numberToString_correct",
    "Ulz.Props.numberToString_rejects",
    "Ulz.Props.numberToString_base0",
    "Ulz.Props.numberToString_loses_zeros",
    "Ulz.Props.numberToString_needs_room"
   ],
   "note": ""
  },
  {
   "property": "C10",
   "status": "proved",
   "theorems": [
    "Ulz.Props.utoa_correct",
    "Ulz.Props.utoa_underrun",
    "Ulz.Props.utoa_fits",
    "Ulz.Props.itoa_needs_room"
   ],
   "note": ""
  },
  {
   "property": "C11",
   "status": "proved",
   "theorems": [
    "Ulz.Props.itoa_correct",
    "Ulz.Props.itoa_int_min",
    "Ulz.Props.itoa_fits",
    "Ulz.Props.itoa_needs_room"
   ],
   "note": ""
  },
  {
   "property": "C12",
   "status": "proved",
   "theorems": [
    "Ulz.Props.strtoint64_roundtrip",
    "Ulz.Props.strtoint64_overflow",
    "Ulz.Props.strtoint_roundtrip"
   ],
   "note": ""
  },
  {
   "property": "C13",
   "status": "proved",
   "theorems": [
    "Ulz.Props.stringfromipv4_correct",
    "Ulz.Props.dotted_fits",
    "Ulz.Props.ipv4_roundtrip",
    "Ulz.Props.ipv4fromstring_pieces",
    "Ulz.Props.isnumericipv4_dotted"
   ],
   "note": ""
  },
  {
   "property": "C14",
   "status": "proved",
   "theorems": [
    "Ulz.Props.isnumericipv4_iff"
   ],
   "note": ""
  },
  {
   "property": "C15",
   "status": "proved",
   "theorems": [
    "Ulz.Props.strstr_uc_sound",
    "Ulz.Props.strstar_sound",
    "Ulz.Props.strstr_uc_exact_of_constant",
    "Ulz.Props.strstar_exact_of_constant",
    "Ulz.Props.strstr_uc_complete_iff",
    "Ulz.Props.strstr_uc_finds_prefix"
   ],
   "note": ""
  },
  {
   "property": "C16",
   "status": "proved",
   "theorems": [
    "Ulz.Props.findword_sound",
    "Ulz.Props.findword_left_boundary",
    "Ulz.Props.findword_left_boundary_fails"
   ],
   "note": ""
  },
  {
   "property": "C17",
   "status": "proved",
   "theorems": [
    "Ulz.Props.char_classes",
    "Ulz.Props.case_conversion",
    "Ulz.Props.hexval_correct"
   ],
   "note": ""
  },
  {
   "property": "C18",
   "status": "proved",
   "theorems": [
    "Ulz.Props.containsChar_correct",
    "Ulz.Props.containsChar_zero",
    "Ulz.Props.strends_correct"
   ],
   "note": ""
  },
  {
   "property": "C81",
   "status": "proved",
   "theorems": [
    "Ulz.Props.strdup_n_correct",
    "Ulz.Props.strdup_n_whole"
   ],
   "note": ""
  },
  {
   "property": "C25",
   "status": "proved",
   "theorems": [
    "Ulz.Props.sblist_refines_list",
    "Ulz.Props.sblist_insert_beyond_end"
   ],
   "note": "sblist_sort is in C112"
  },
  {
   "property": "C26",
   "status": "proved",
   "theorems": [
    "Ulz.Props.sblist_failed_growth"
   ],
   "note": ""
  },
  {
   "property": "C27",
   "status": "proved",
   "theorems": [
    "Ulz.Props.sblist_insert_sorted_correct"
   ],
   "note": ""
  },
  {
   "property": "C28",
   "status": "proved",
   "theorems": [
    "Ulz.Props.sblist_bsearch_correct"
   ],
   "note": ""
  },
  {
   "property": "C29",
   "status": "proved",
   "theorems": [
    "Ulz.Props.sblist_within_capacity",
    "Ulz.Props.sblist_from_data_overruns",
    "Ulz.Props.sblist_big_items_overrun",
    "Ulz.Props.sblist_default_block"
   ],
   "note": ""
  },
  {
   "property": "C30",
   "status": "proved",
   "theorems": [
    "Ulz.Props.sblist_free_values_wrong"
   ],
   "note": "the documented effect does not hold; the theorem states what happens instead"
  },
  {
   "property": "C31",
   "status": "proved",
   "theorems": [
    "Ulz.Props.tlist_refines_list",
    "Ulz.Props.tlist_refines_list_from",
    "Ulz.Props.tlist_insert_correct"
   ],
   "note": "at most 2^32 - 1 calls, so the size fits unsigned; allocator obeys the malloc contract"
  },
  {
   "property": "C32",
   "status": "proved",
   "theorems": [
    "Ulz.Props.tlist_refines_list",
    "Ulz.Props.tlist_refines_list_from"
   ],
   "note": ""
  },
  {
   "property": "C33",
   "status": "proved",
   "theorems": [
    "Ulz.Props.tlist_get_out_of_range"
   ],
   "note": "the documented NULL is not delivered; the theorem states what is returned instead"
  },
  {
   "property": "C34",
   "status": "proved",
   "theorems": [
    "Ulz.Props.tlist_delete_deep_bad_free",
    "Ulz.Props.tlist_free_items_deep_bad_free"
   ],
   "note": ""
  },
  {
   "property": "C35",
   "status": "proved",
   "theorems": [
    "Ulz.Props.tlist_free_items_correct"
   ],
   "note": ""
  },
  {
   "property": "C36",
   "status": "proved",
   "theorems": [
    "Ulz.Props.tglist_refines_list",
    "Ulz.Props.tglist_fails_iff"
   ],
   "note": ""
  },
  {
   "property": "C37",
   "status": "proved",
   "theorems": [
    "Ulz.Props.tgilist_refines_list",
    "Ulz.Props.tgilist_index_wraps"
   ],
   "note": ""
  },
  {
   "property": "C38",
   "status": "proved",
   "theorems": [
    "Ulz.Props.bmap_is_map",
    "Ulz.Props.bmap_insert_index"
   ],
   "note": "value list tglist (the default); bsearch by its ISO contract"
  },
  {
   "property": "C39",
   "status": "proved",
   "theorems": [
    "Ulz.Props.bmap_insert_outcomes",
    "Ulz.Props.bmap_overwrite_never_fails"
   ],
   "note": ""
  },
  {
   "property": "C40",
   "status": "proved",
   "theorems": [
    "Ulz.Props.hbmap_is_map"
   ],
   "note": ""
  },
  {
   "property": "C41",
   "status": "proved",
   "theorems": [
    "Ulz.Props.hbmap_foreach_visits_all"
   ],
   "note": ""
  },
  {
   "property": "C82",
   "status": "proved",
   "theorems": [
    "Ulz.Props.tglist_free_values_correct"
   ],
   "note": ""
  },
  {
   "property": "C83",
   "status": "proved",
   "theorems": [
    "Ulz.Props.tglist_insert_sorted_correct"
   ],
   "note": ""
  },
  {
   "property": "C42",
   "status": "proved",
   "theorems": [
    "Ulz.Props.hashlist_get_correct",
    "Ulz.Props.hashlist_add_fails_with_one"
   ],
   "note": ""
  },
  {
   "property": "C43",
   "status": "proved",
   "theorems": [
    "Ulz.Props.hashlist_next_results",
    "Ulz.Props.hashlist_next_visits_all"
   ],
   "note": ""
  },
  {
   "property": "C44",
   "status": "proved",
   "theorems": [
    "Ulz.Props.kv_find_correct",
    "Ulz.Props.kv_find_null"
   ],
   "note": ""
  },
  {
   "property": "C45",
   "status": "proved",
   "theorems": [
    "Ulz.Props.stringptr_eq_correct",
    "Ulz.Props.stringptr_eq_null",
    "Ulz.Props.stringptr_contains_correct",
    "Ulz.Props.stringptr_here_correct",
    "Ulz.Props.stringptr_here_past_end",
    "Ulz.Props.stringptr_hash_congr"
   ],
   "note": ""
  },
  {
   "property": "C46",
   "status": "proved",
   "theorems": [
    "Ulz.Props.stringptr_hash_width_independent"
   ],
   "note": ""
  },
  {
   "property": "C47",
   "status": "proved",
   "theorems": [
    "Ulz.Props.stringptr_shiftright_correct",
    "Ulz.Props.stringptr_shiftleft_correct",
    "Ulz.Props.stringptr_shiftleft_zero_needs_room",
    "Ulz.Props.stringptr_chomp_correct",
    "Ulz.Props.stringptr_rchr_correct",
    "Ulz.Props.stringptr_rchr_high_byte"
   ],
   "note": ""
  },
  {
   "property": "C48",
   "status": "proved",
   "theorems": [
    "Ulz.Props.stringptr_copy_correct",
    "Ulz.Props.stringptr_copy_out_of_memory",
    "Ulz.Props.stringptr_strdup_correct",
    "Ulz.Props.stringptr_concat_correct"
   ],
   "note": ""
  },
  {
   "property": "C49",
   "status": "proved",
   "theorems": [
    "Ulz.Props.stringptr_splitc_correct",
    "Ulz.Props.split_at_char_unique",
    "Ulz.Props.keep_everything",
    "Ulz.Props.stringptr_splitc_high_delimiter",
    "Ulz.Props.stringptr_splitc_needs_room"
   ],
   "note": ""
  },
  {
   "property": "C50",
   "status": "proved",
   "theorems": [
    "Ulz.Props.stringptr_splits_correct",
    "Ulz.Props.split_at_string_unique",
    "Ulz.Props.stringptr_splits_empty_delimiter"
   ],
   "note": ""
  },
  {
   "property": "C51",
   "status": "proved",
   "theorems": [
    "Ulz.Props.stringptr_replace_correct",
    "Ulz.Props.stringptr_replace_self"
   ],
   "note": "The allocations of the intermediate list succeed here; C133 and C134 are about those that fail."
  },
  {
   "property": "C52",
   "status": "proved",
   "theorems": [
    "Ulz.Props.stringptrlist_tostring_correct",
    "Ulz.Props.stringptrlist_tostring_dos_correct",
    "Ulz.Props.stringptrlist_lines_roundtrip"
   ],
   "note": ""
  },
  {
   "property": "C53",
   "status": "proved",
   "theorems": [
    "Ulz.Props.stringptrlist_find_correct",
    "Ulz.Props.stringptrlist_find_null"
   ],
   "note": ""
  },
  {
   "property": "C84",
   "status": "proved",
   "theorems": [
    "Ulz.Props.read_stdin_line_chomp",
    "Ulz.Props.read_stdin_line_keep",
    "Ulz.Props.stringptr_fromchar_exact"
   ],
   "note": ""
  },
  {
   "property": "C85",
   "status": "proved",
   "theorems": [
    "Ulz.Props.stringptr_new_correct",
    "Ulz.Props.stringptr_new_overflow"
   ],
   "note": ""
  },
  {
   "property": "C86",
   "status": "proved",
   "theorems": [
    "Ulz.Props.stringptr_hash_is_elf"
   ],
   "note": ""
  },
  {
   "property": "C87",
   "status": "proved",
   "theorems": [
    "Ulz.Props.stringptrlist_dup_entries_correct"
   ],
   "note": ""
  },
  {
   "property": "C88",
   "status": "proved",
   "theorems": [
    "Ulz.Props.stringptrlist_freestrings_correct"
   ],
   "note": ""
  },
  {
   "property": "C89",
   "status": "proved",
   "theorems": [
    "Ulz.Props.stringptrlist_add_strdup_leak"
   ],
   "note": ""
  },
  {
   "property": "C19",
   "status": "proved",
   "theorems": [
    "Ulz.Props.crc32_correct",
    "Ulz.Props.crc32c_correct"
   ],
   "note": ""
  },
  {
   "property": "C20",
   "status": "proved",
   "theorems": [
    "Ulz.Props.crc_detects_bursts",
    "Ulz.Props.crc_detects_byte_errors",
    "Ulz.Props.crc32_misses_33_bit_burst"
   ],
   "note": ""
  },
  {
   "property": "C21",
   "status": "proved",
   "theorems": [
    "Ulz.Props.crc32_residue",
    "Ulz.Props.crc32c_residue"
   ],
   "note": ""
  },
  {
   "property": "C90",
   "status": "proved",
   "theorems": [
    "Ulz.Props.crc_needs_tables"
   ],
   "note": ""
  },
  {
   "property": "C91",
   "status": "proved",
   "theorems": [
    "Ulz.Props.crc_final_twice"
   ],
   "note": ""
  },
  {
   "property": "C22",
   "status": "proved",
   "theorems": [
    "Ulz.Props.md5_correct",
    "Ulz.Props.md5_needs_16",
    "Ulz.Props.md5_running_digest",
    "Ulz.Props.md5_digest_size",
    "Ulz.Props.md5_constants"
   ],
   "note": ""
  },
  {
   "property": "C23",
   "status": "proved",
   "theorems": [
    "Ulz.Props.md5str_correct",
    "Ulz.Props.md5str_needs_33"
   ],
   "note": ""
  },
  {
   "property": "C24",
   "status": "proved",
   "theorems": [
    "Ulz.Props.sha512_correct",
    "Ulz.Props.sha512_correct_no_last",
    "Ulz.Props.sha512_digest_size",
    "Ulz.Props.sha512_constants"
   ],
   "note": ""
  },
  {
   "property": "C92",
   "status": "proved",
   "theorems": [
    "Ulz.Props.sha512_bytewise_updates_wrong",
    "Ulz.Props.sha512_any_chunks",
    "Ulz.Props.sha512_tails_ignored",
    "Ulz.Props.sha512_first_ignored"
   ],
   "note": ""
  },
  {
   "property": "C57",
   "status": "proved",
   "theorems": [
    "Ulz.Props.normalizepath_correct",
    "Ulz.Props.normalize_shorter",
    "Ulz.Props.normalizepath_too_long",
    "Ulz.Props.normalizepath_relative",
    "Ulz.Props.components_unique"
   ],
   "note": ""
  },
  {
   "property": "C58",
   "status": "proved",
   "theorems": [
    "Ulz.Props.normalizepath_cstr_correct",
    "Ulz.Props.normalizepath_idempotent"
   ],
   "note": ""
  },
  {
   "property": "C59",
   "status": "proved",
   "theorems": [
    "Ulz.Props.getpathdiff_correct",
    "Ulz.Props.getpathdiff_starts_with_slash",
    "Ulz.Props.getpathdiff_any_length"
   ],
   "note": "getpathdiff_any_length: every two paths and every buffer"
  },
  {
   "property": "C60",
   "status": "proved",
   "theorems": [
    "Ulz.Props.getfilename_correct",
    "Ulz.Props.getFileExt_correct"
   ],
   "note": ""
  },
  {
   "property": "C61",
   "status": "proved",
   "theorems": [
    "Ulz.Props.mktempdir_correct",
    "Ulz.Props.mktempdir_terminates"
   ],
   "note": ""
  },
  {
   "property": "C54",
   "status": "proved",
   "theorems": [
    "Ulz.Props.tofile_correct",
    "Ulz.Props.fromfile_correct",
    "Ulz.Props.file_roundtrip",
    "Ulz.Props.content_exists"
   ],
   "note": ""
  },
  {
   "property": "C55",
   "status": "proved",
   "theorems": [
    "Ulz.Props.readline_userbuf_correct",
    "Ulz.Props.readline_correct",
    "Ulz.Props.readline_enumerates",
    "Ulz.Props.readline_fd0",
    "Ulz.Props.content_exists"
   ],
   "note": ""
  },
  {
   "property": "C56",
   "status": "proved",
   "theorems": [
    "Ulz.Props.getnextlinelength_correct"
   ],
   "note": ""
  },
  {
   "property": "C66",
   "status": "proved",
   "theorems": [
    "Ulz.Props.get_section_correct",
    "Ulz.Props.get_section_first",
    "Ulz.Props.get_next_section_visits"
   ],
   "note": ""
  },
  {
   "property": "C67",
   "status": "proved",
   "theorems": [
    "Ulz.Props.getvalue_at_correct",
    "Ulz.Props.getvalue_correct",
    "Ulz.Props.file_as_section_correct"
   ],
   "note": ""
  },
  {
   "property": "C68",
   "status": "proved",
   "theorems": [
    "Ulz.Props.count_sections_correct"
   ],
   "note": ""
  },
  {
   "property": "C69",
   "status": "proved",
   "theorems": [
    "Ulz.Props.op_get_correct",
    "Ulz.Props.gives_unique",
    "Ulz.Props.op_get_empty",
    "Ulz.Props.op_hasflag_correct",
    "Ulz.Props.op_hasflag_dash"
   ],
   "note": ""
  },
  {
   "property": "C72",
   "status": "proved",
   "theorems": [
    "Ulz.Props.bitarray_set_get",
    "Ulz.Props.bitarray_outside",
    "Ulz.Props.bitarray_get",
    "Ulz.Props.bitarray_get_swapped",
    "Ulz.Props.bitarray_size",
    "Ulz.Props.bitarray_fits",
    "Ulz.Props.bytem_bytel"
   ],
   "note": ""
  },
  {
   "property": "C74",
   "status": "proved",
   "theorems": [
    "Ulz.Props.byteswap16_bytes",
    "Ulz.Props.byteswap16_involution",
    "Ulz.Props.byteswap32_bytes",
    "Ulz.Props.byteswap32_involution",
    "Ulz.Props.byteswap64_bytes",
    "Ulz.Props.byteswap64_involution",
    "Ulz.Props.le16_in_memory",
    "Ulz.Props.le32_in_memory"
   ],
   "note": ""
  },
  {
   "property": "C70",
   "status": "proved",
   "theorems": [
    "Ulz.Props.ssalloc_history",
    "Ulz.Props.ssalloc_live",
    "Ulz.Props.ssalloc_disjoint",
    "Ulz.Props.ssalloc_free_before"
   ],
   "note": ""
  },
  {
   "property": "C71",
   "status": "proved",
   "theorems": [
    "Ulz.Props.ssalloc_fails_iff",
    "Ulz.Props.ssalloc_full_iff",
    "Ulz.Props.ssalloc_incomplete"
   ],
   "note": ""
  },
  {
   "property": "C73",
   "status": "proved",
   "theorems": [
    "Ulz.Props.guard_alloc_correct",
    "Ulz.Props.guard_alloc_fails",
    "Ulz.Props.guard_free_exact",
    "Ulz.Props.guard_free_leaks",
    "Ulz.Props.guard_alloc_wraps",
    "Ulz.Props.guard_alloc_wraps_zero"
   ],
   "note": ""
  },
  {
   "property": "C62",
   "status": "proved",
   "theorems": [
    "Ulz.Props.vsnprintf_correct",
    "Ulz.Props.vsnprintf_inside",
    "Ulz.Props.vsnprintf_size_zero"
   ],
   "note": ""
  },
  {
   "property": "C63",
   "status": "proved",
   "theorems": [
    "Ulz.Props.snprintf_d",
    "Ulz.Props.snprintf_u",
    "Ulz.Props.snprintf_ld",
    "Ulz.Props.snprintf_lu",
    "Ulz.Props.snprintf_s",
    "Ulz.Props.snprintf_c",
    "Ulz.Props.snprintf_pct",
    "Ulz.Props.snprintf_prec",
    "Ulz.Props.snprintf_x"
   ],
   "note": ""
  },
  {
   "property": "C64",
   "status": "proved",
   "theorems": [
    "Ulz.Props.width_digits",
    "Ulz.Props.precision_overrun"
   ],
   "note": ""
  },
  {
   "property": "C93",
   "status": "proved",
   "theorems": [
    "Ulz.Props.precision_leaks",
    "Ulz.Props.vsnprintf_correct"
   ],
   "note": "The general statement is vsnprintf_correct with the specification's pend/convText, which carry the width over strings, characters and percent signs to the next number."
  },
  {
   "property": "C94",
   "status": "proved",
   "theorems": [
    "Ulz.Props.format_parses",
    "Ulz.Props.vsnprintf_correct",
    "Ulz.Props.vsnprintf_fails"
   ],
   "note": ""
  },
  {
   "property": "C75",
   "status": "proved",
   "theorems": [
    "Ulz.Props.timespec_diff_correct",
    "Ulz.Props.timespec_diff_range",
    "Ulz.Props.timespec_diff_laws",
    "Ulz.Props.getutime_correct",
    "Ulz.Props.mspassed_correct",
    "Ulz.Props.msleep_correct",
    "Ulz.Props.microsleep_correct"
   ],
   "note": ""
  },
  {
   "property": "C76",
   "status": "proved",
   "theorems": [
    "Ulz.Props.msleep_correct",
    "Ulz.Props.microsleep_correct",
    "Ulz.Props.sleep_negative"
   ],
   "note": ""
  },
  {
   "property": "C65",
   "status": "proved",
   "theorems": [
    "Ulz.Props.timestamp_correct",
    "Ulz.Props.timestamp_overflow_iff",
    "Ulz.Props.timestamp_year",
    "Ulz.Props.log_timestamp_correct"
   ],
   "note": ""
  },
  {
   "property": "C77",
   "status": "proved",
   "theorems": [
    "Ulz.Props.log_put_correct",
    "Ulz.Props.log_puterror_correct"
   ],
   "note": ""
  },
  {
   "property": "C95",
   "status": "proved",
   "theorems": [
    "Ulz.Props.fprintf_correct",
    "Ulz.Props.fprintf_fails",
    "Ulz.Props.stringptr_format_correct",
    "Ulz.Props.stringptr_format_fails"
   ],
   "note": ""
  },
  {
   "property": "C78",
   "status": "proved",
   "theorems": [
    "Ulz.Props.stringptr_tofile_correct",
    "Ulz.Props.stringptr_tofile_succeeds",
    "Ulz.Props.stringptr_tofile_stuck",
    "Ulz.Props.stringptr_tofile_refused",
    "Ulz.Props.stringptr_fromfile_correct",
    "Ulz.Props.stringptr_fromfile_succeeds",
    "Ulz.Props.stringptr_fromfile_shrunk",
    "Ulz.Props.stringptr_fromfile_refused",
    "Ulz.Props.wholefile_roundtrip"
   ],
   "note": ""
  },
  {
   "property": "C96",
   "status": "proved",
   "theorems": [
    "Ulz.Props.stringptrlist_tofile_correct",
    "Ulz.Props.stringptrlist_tofile_refused"
   ],
   "note": ""
  },
  {
   "property": "C79",
   "status": "proved",
   "theorems": [
    "Ulz.Props.process_open_fails",
    "Ulz.Props.process_open_no_leak",
    "Ulz.Props.process_open_succeeds",
    "Ulz.Props.process_open_stdin_closed",
    "Ulz.Props.process_open_init_fails"
   ],
   "note": ""
  },
  {
   "property": "C97",
   "status": "proved",
   "theorems": [
    "Ulz.Props.process_open_succeeds"
   ],
   "note": ""
  },
  {
   "property": "C98",
   "status": "proved",
   "theorems": [
    "Ulz.Props.daemonize_correct",
    "Ulz.Props.daemonize_no_null",
    "Ulz.Props.daemonize_parent"
   ],
   "note": ""
  },
  {
   "property": "C80",
   "status": "proved",
   "theorems": [
    "Ulz.Props.filelist_search_too_long",
    "Ulz.Props.filelist_search_error",
    "Ulz.Props.filelist_search_correct",
    "Ulz.Props.filelist_search_memory",
    "Ulz.Props.filelist_search_nameless",
    "Ulz.Props.filelist_paths",
    "Ulz.Props.filelist_search_null",
    "Ulz.Props.escape_literal"
   ],
   "note": ""
  },
  {
   "property": "C99",
   "status": "proved",
   "theorems": [
    "Ulz.Props.escape_backslash",
    "Ulz.Props.escape_shortens",
    "Ulz.Props.escape_literal_iff"
   ],
   "note": "A defect of the code, with its exact boundary."
  },
  {
   "property": "C100",
   "status": "proved",
   "theorems": [
    "Ulz.Props.crc32_double_bit",
    "Ulz.Props.crc32c_double_bit",
    "Ulz.Props.crc32c_odd_errors",
    "Ulz.Props.crc32_misses_odd_errors"
   ],
   "note": ""
  },
  {
   "property": "C101",
   "status": "proved",
   "theorems": [
    "Ulz.Props.crc32_is_polynomial_remainder",
    "Ulz.Props.crc32c_is_polynomial_remainder"
   ],
   "note": ""
  },
  {
   "property": "C102",
   "status": "proved",
   "theorems": [
    "Ulz.Props.crc32c_documentation_false",
    "Ulz.Props.crc32_documentation"
   ],
   "note": "A defect of the documentation: the theorems state exactly when it is right."
  },
  {
   "property": "C103",
   "status": "proved",
   "theorems": [
    "Ulz.Props.hex_program_correct"
   ],
   "note": ""
  },
  {
   "property": "C104",
   "status": "proved",
   "theorems": [
    "Ulz.Props.crc_printer_file",
    "Ulz.Props.crc_printer_count",
    "Ulz.Props.crc_printer_overflow"
   ],
   "note": ""
  },
  {
   "property": "C105",
   "status": "proved",
   "theorems": [
    "Ulz.Props.compare_files_exact",
    "Ulz.Props.identical_files_printed"
   ],
   "note": ""
  },
  {
   "property": "C106",
   "status": "proved",
   "theorems": [
    "Ulz.Props.full_names"
   ],
   "note": "A defect of the program, with its exact boundary."
  },
  {
   "property": "C107",
   "status": "proved",
   "theorems": [
    "Ulz.Props.diff_output",
    "Ulz.Props.runs_are_maximal",
    "Ulz.Props.diff_silent",
    "Ulz.Props.diff_reports_block",
    "Ulz.Props.diff_null"
   ],
   "note": ""
  },
  {
   "property": "C108",
   "status": "proved",
   "theorems": [
    "Ulz.Props.diff_wrong_offset"
   ],
   "note": "A defect of the program: together with diff_output the exact lines it prints instead."
  },
  {
   "property": "C109",
   "status": "proved",
   "theorems": [
    "Ulz.Props.stringlist_add_dup_history"
   ],
   "note": ""
  },
  {
   "property": "C110",
   "status": "proved",
   "theorems": [
    "Ulz.Props.stringlist_foreach_correct"
   ],
   "note": ""
  },
  {
   "property": "C111",
   "status": "proved",
   "theorems": [
    "Ulz.Props.sptrlist_correct"
   ],
   "note": ""
  },
  {
   "property": "C112",
   "status": "proved",
   "theorems": [
    "Ulz.Props.sblist_sort_correct"
   ],
   "note": "qsort by its ISO C contract."
  },
  {
   "property": "C113",
   "status": "proved",
   "theorems": [
    "Ulz.Props.stringptrlist_freeall_correct"
   ],
   "note": ""
  },
  {
   "property": "C114",
   "status": "proved",
   "theorems": [
    "Ulz.Props.fileparser_close_correct",
    "Ulz.Props.fileparser_cycles",
    "Ulz.Props.fileparser_descriptor_zero"
   ],
   "note": ""
  },
  {
   "property": "C115",
   "status": "proved",
   "theorems": [
    "Ulz.Props.op_printall_correct"
   ],
   "note": ""
  },
  {
   "property": "C116",
   "status": "proved",
   "theorems": [
    "Ulz.Props.stdio_puts",
    "Ulz.Props.stdio_perror",
    "Ulz.Props.stdio_fprintf"
   ],
   "note": "Defects of the header, with their exact boundaries."
  },
  {
   "property": "C117",
   "status": "proved",
   "theorems": [
    "Ulz.Props.codedup_correct",
    "Ulz.Props.codedup_lines"
   ],
   "note": "The containers by their properties C36, C40, C41, C83; allocations succeed."
  },
  {
   "property": "C118",
   "status": "proved",
   "theorems": [
    "Ulz.Props.codedup_end_missed",
    "Ulz.Props.codedup_end_boundary",
    "Ulz.Props.codedup_silent",
    "Ulz.Props.codedup_skip_bug"
   ],
   "note": "Defects, with their exact boundaries."
  },
  {
   "property": "C119",
   "status": "proved",
   "theorems": [
    "Ulz.Props.codedup_zero_hangs"
   ],
   "note": ""
  },
  {
   "property": "C120",
   "status": "proved",
   "theorems": [
    "Ulz.Props.codedup_isspace_bug"
   ],
   "note": ""
  },
  {
   "property": "C121",
   "status": "proved",
   "theorems": [
    "Ulz.Props.codedup_end_option",
    "Ulz.Props.codedup_long_line"
   ],
   "note": ""
  },
  {
   "property": "C122",
   "status": "proved",
   "theorems": [
    "Ulz.Props.readline_any_system",
    "Ulz.Props.readline_good_system"
   ],
   "note": ""
  },
  {
   "property": "C123",
   "status": "proved",
   "theorems": [
    "Ulz.Props.readline_short_reads"
   ],
   "note": "A defect."
  },
  {
   "property": "C124",
   "status": "proved",
   "theorems": [
    "Ulz.Props.fromfile_swallows_errors"
   ],
   "note": "A defect."
  },
  {
   "property": "C125",
   "status": "proved",
   "theorems": [
    "Ulz.Props.ibmap_is_map",
    "Ulz.Props.ibmap_insert_outcomes"
   ],
   "note": ""
  },
  {
   "property": "C126",
   "status": "proved",
   "theorems": [
    "Ulz.Props.ibmap_never_reuses",
    "Ulz.Props.ibmap_index_wraps"
   ],
   "note": "A defect."
  },
  {
   "property": "C127",
   "status": "proved",
   "theorems": [
    "Ulz.Props.bmap_fini_exact",
    "Ulz.Props.ibmap_fini_exact",
    "Ulz.Props.ibmap_fini_double_free"
   ],
   "note": ""
  },
  {
   "property": "C128",
   "status": "proved",
   "theorems": [
    "Ulz.Props.samefiles_correct",
    "Ulz.Props.samefiles_terminates"
   ],
   "note": ""
  },
  {
   "property": "C129",
   "status": "proved",
   "theorems": [
    "Ulz.Props.samefiles_stops"
   ],
   "note": "A defect."
  },
  {
   "property": "C130",
   "status": "proved",
   "theorems": [
    "Ulz.Props.psp_normalize_correct",
    "Ulz.Props.psp_normalize_refuses"
   ],
   "note": ""
  },
  {
   "property": "C131",
   "status": "proved",
   "theorems": [
    "Ulz.Props.psp_normalize_again"
   ],
   "note": "The exception is a defect."
  },
  {
   "property": "C132",
   "status": "proved",
   "theorems": [
    "Ulz.Props.sblist_lifetime_frees",
    "Ulz.Props.sblist_blocks",
    "Ulz.Props.sblist_free_twice",
    "Ulz.Props.hashlist_lifetime_frees"
   ],
   "note": ""
  },
  {
   "property": "C133",
   "status": "proved",
   "theorems": [
    "Ulz.Props.stringptr_replace_leaks",
    "Ulz.Props.stringptr_replace_refused_first",
    "Ulz.Props.stringptr_replace_memory"
   ],
   "note": "A defect."
  },
  {
   "property": "C134",
   "status": "proved",
   "theorems": [
    "Ulz.Props.stringptr_replace_memory",
    "Ulz.Props.stringptr_replace_uninitialised",
    "Ulz.Props.stringptr_replace_uninitialised_case"
   ],
   "note": "A defect."
  },
  {
   "property": "C135",
   "status": "proved",
   "theorems": [
    "Ulz.Props.filelist_search_blocks",
    "Ulz.Props.filelist_search_blocks_success",
    "Ulz.Props.filelist_search_leaks"
   ],
   "note": "A defect."
  },
  {
   "property": "C136",
   "status": "proved",
   "theorems": [
    "Ulz.Props.listing_correct",
    "Ulz.Props.listing_count"
   ],
   "note": ""
  },
  {
   "property": "C137",
   "status": "proved",
   "theorems": [
    "Ulz.Props.listing_total"
   ],
   "note": ""
  },
  {
   "property": "C138",
   "status": "proved",
   "theorems": [
    "Ulz.Props.listing_empty_argument",
    "Ulz.Props.listing_no_memory"
   ],
   "note": "Defects."
  },
  {
   "property": "C139",
   "status": "proved",
   "theorems": [
    "Ulz.Props.log_put_calls",
    "Ulz.Props.log_puts_calls",
    "Ulz.Props.log_puterror_calls",
    "Ulz.Props.fprintf_calls"
   ],
   "note": ""
  },
  {
   "property": "C140",
   "status": "proved",
   "theorems": [
    "Ulz.Props.log_put_arrives",
    "Ulz.Props.log_put_hole",
    "Ulz.Props.fprintf_arrives"
   ],
   "note": "The hole is a defect."
  },
  {
   "property": "C141",
   "status": "proved",
   "theorems": [
    "Ulz.Props.log_put_torn",
    "Ulz.Props.fprintf_whole"
   ],
   "note": "Each call of write is taken to be atomic, which is the best case."
  },
  {
   "property": "C142",
   "status": "proved",
   "theorems": [
    "Ulz.Props.process_close_exited",
    "Ulz.Props.process_close_killed",
    "Ulz.Props.process_close_failed"
   ],
   "note": "The last two are defects. The encoding of the status is that of Linux."
  },
  {
   "property": "C143",
   "status": "proved",
   "theorems": [
    "Ulz.Props.printable_class",
    "Ulz.Props.c_printable_class",
    "Ulz.Props.sh_printable_class",
    "Ulz.Props.class_nodup"
   ],
   "note": ""
  },
  {
   "property": "C144",
   "status": "proved",
   "theorems": [
    "Ulz.Props.sblist_add_own",
    "Ulz.Props.sblist_set_own",
    "Ulz.Props.sblist_insert_own",
    "Ulz.Props.sblist_pop_add",
    "Ulz.Props.sblist_insert_sorted_own",
    "Ulz.Props.alias_outside"
   ],
   "note": "Defects (undocumented preconditions). Copying an item onto itself is undefined because memcpy is used."
  },
  {
   "property": "C145",
   "status": "proved",
   "theorems": [
    "Ulz.Props.tglist_add_own",
    "Ulz.Props.tglist_insert_own",
    "Ulz.Props.tglist_add_last",
    "Ulz.Props.tglist_add_last_full",
    "Ulz.Props.alias_outside_tglist"
   ],
   "note": "The wrong cases are defects of macros that evaluate their argument late."
  },
  {
   "property": "C146",
   "status": "proved",
   "theorems": [
    "Ulz.Props.ini_lookup_text",
    "Ulz.Props.ini_lookup_lines",
    "Ulz.Props.ini_lookup"
   ],
   "note": "If all lines can be added to the list."
  },
  {
   "property": "C147",
   "status": "proved",
   "theorems": [
    "Ulz.Props.ini_crlf",
    "Ulz.Props.ini_name_with_bracket",
    "Ulz.Props.ini_key_with_equals",
    "Ulz.Props.ini_key_with_equals_lookup"
   ],
   "note": "Defects."
  },
  {
   "property": "C148",
   "status": "proved",
   "theorems": [
    "Ulz.Props.hbmap_foreach_delete_if",
    "Ulz.Props.hbmap_foreach_delete_all",
    "Ulz.Props.hbmap_foreach_delete_skips"
   ],
   "note": "The documented loop is right; the third theorem is the exact effect of the loop the header warns about."
  },
  {
   "property": "C149",
   "status": "proved",
   "theorems": [
    "Ulz.Props.tglist_owned_frees",
    "Ulz.Props.tglist_items_stay",
    "Ulz.Props.tgilist_owned_frees",
    "Ulz.Props.tgilist_deleted_item_freed_twice"
   ],
   "note": "The last theorem is the exact difference between tglist and tgilist."
  },
  {
   "property": "C150",
   "status": "proved",
   "theorems": [
    "Ulz.Props.bmap_owned_frees",
    "Ulz.Props.bmap_owned_frees_all",
    "Ulz.Props.hbmap_owned_frees",
    "Ulz.Props.hbmap_owned_stay"
   ],
   "note": "For pointers as keys and values; hbmap_insert of a new key is hbmap_insert_nocheck."
  },
  {
   "property": "C151",
   "status": "proved",
   "theorems": [
    "Ulz.Props.bmap_insert_leaks",
    "Ulz.Props.bmap_insert_leak_witness"
   ],
   "note": "Defect."
  },
  {
   "property": "C152",
   "status": "proved",
   "theorems": [
    "Ulz.Props.hbmap_new_buckets",
    "Ulz.Props.hbmap_new_refused"
   ],
   "note": "The overflow is a defect."
  },
  {
   "property": "C153",
   "status": "proved",
   "theorems": [
    "Ulz.Props.tgilist_signed_refines_list",
    "Ulz.Props.tgilist_signed_reach",
    "Ulz.Props.tgilist_short_limit"
   ],
   "note": "The header's remark about short and 64K values is wrong for two's complement types."
  },
  {
   "property": "C154",
   "status": "proved",
   "theorems": [
    "Ulz.Props.lists_interchangeable"
   ],
   "note": "Allocation succeeds; fewer than 2^32 calls (tlist) and no more than the index type has values (tgilist)."
  },
  {
   "property": "C155",
   "status": "proved",
   "theorems": [
    "Ulz.Props.tlist_worst_case"
   ],
   "note": "The header's O(log N) is an expectation over the priorities, which are the same in every run. Recursion depth is what is counted."
  },
  {
   "property": "C156",
   "status": "proved",
   "theorems": [
    "Ulz.Props.bmap_is_multimap",
    "Ulz.Props.bmap_multimap_deletions"
   ],
   "note": "Default value list (tglist)."
  },
  {
   "property": "C157",
   "status": "proved",
   "theorems": [
    "Ulz.Props.bmap_any_comparison"
   ],
   "note": "For a comparison function that is no order ISO C leaves bsearch undefined; assumed is only that it returns an element of the array or NULL."
  },
  {
   "property": "C158",
   "status": "proved",
   "theorems": [
    "Ulz.Props.mktempdir_concurrent"
   ],
   "note": "mkdir is atomic (POSIX); a process removes only its own directory, others remove none."
  },
  {
   "property": "C159",
   "status": "proved",
   "theorems": [
    "Ulz.Props.mktempdir_same_names",
    "Ulz.Props.mktempdir_blocked"
   ],
   "note": "rand is seeded by the caller or not at all."
  },
  {
   "property": "C160",
   "status": "proved",
   "theorems": [
    "Ulz.Props.follow_whole_lines"
   ],
   "note": "The file starts empty; read and lseek succeed."
  },
  {
   "property": "C161",
   "status": "proved",
   "theorems": [
    "Ulz.Props.follow_exact",
    "Ulz.Props.follow_loses_bytes",
    "Ulz.Props.follow_rest"
   ],
   "note": "Defect: fpos is advanced for a line feed that is not there."
  },
  {
   "property": "C162",
   "status": "proved",
   "theorems": [
    "Ulz.Props.save_steps",
    "Ulz.Props.save_crash_points"
   ],
   "note": "every crash point leaves the old content, or exactly the transferred part of the new; both contents are lost in between (negative)"
  },
  {
   "property": "C163",
   "status": "proved",
   "theorems": [
    "Ulz.Props.save_concurrent",
    "Ulz.Props.save_concurrent_same",
    "Ulz.Props.save_concurrent_mixed",
    "Ulz.Props.save_concurrent_hole"
   ],
   "note": "equal texts are safe under every schedule; different texts can be mixed and can leave a hole (negative)"
  },
  {
   "property": "C164",
   "status": "proved",
   "theorems": [
    "Ulz.Props.ssalloc_counters",
    "Ulz.Props.ssalloc_debug",
    "Ulz.Props.ssalloc_test_passes",
    "Ulz.Props.ssalloc_test_general"
   ],
   "note": "counters and bit array after every history; DEBUG aborts exactly at pointers that are not live; the test program passes for all random numbers"
  },
  {
   "property": "C165",
   "status": "proved",
   "theorems": [
    "Ulz.Props.process_writers",
    "Ulz.Props.process_close_returns_iff",
    "Ulz.Props.process_close_effect",
    "Ulz.Props.process_all_closed",
    "Ulz.Props.process_close_reverse"
   ],
   "note": "exact: process_close returns iff all later processes were closed before (the pipes are inherited by later children); closing in reverse order always works"
  },
  {
   "property": "C166",
   "status": "proved",
   "theorems": [
    "Ulz.Props.crc_init_sequential",
    "Ulz.Props.crc_init_race",
    "Ulz.Props.crc_init_one_done",
    "Ulz.Props.crc_init_too_early"
   ],
   "note": "Stores and loads are atomic in the model (ISO C leaves the race undefined). crc_init_too_early is negative: a caller that does not wait for a thread to return from InitTables gets wrong CRCs."
  },
  {
   "property": "C167",
   "status": "proved",
   "theorems": [
    "Ulz.Props.base64dec_overlap",
    "Ulz.Props.base64enc_overlap",
    "Ulz.Props.raw2hex_overlap",
    "Ulz.Props.hex2raw_overlap",
    "Ulz.Props.rc4_overlap",
    "Ulz.Props.base64dec_in_place",
    "Ulz.Props.base64enc_in_place",
    "Ulz.Props.raw2hex_in_place",
    "Ulz.Props.hex2raw_in_place"
   ],
   "note": "Equality with the separate-object models, undefined behaviour included."
  },
  {
   "property": "C168",
   "status": "proved",
   "theorems": [
    "Ulz.Props.overlap_bounds_tight",
    "Ulz.Props.rc4_behind_iff"
   ],
   "note": "Witnesses that the bounds of C167 are tight; for rc4 the exact condition for every distance."
  },
  {
   "property": "C169",
   "status": "proved",
   "theorems": [
    "Ulz.Props.rc4_same_keys",
    "Ulz.Props.rc4_long_key",
    "Ulz.Props.rc4_repeated_key"
   ],
   "note": "Equality of the whole outcome, undefined behaviour included. No claim that other keys differ."
  },
  {
   "property": "C170",
   "status": "proved",
   "theorems": [
    "Ulz.Props.rc4_n_one",
    "Ulz.Props.ciphersaber_2_decrypts",
    "Ulz.Props.ciphersaber_1_decrypts",
    "Ulz.Props.ciphersaber_aborts_iff",
    "Ulz.Props.ciphersaber_iv_ignored",
    "Ulz.Props.rc4_n_zero"
   ],
   "note": "Assertions enabled (NDEBUG not defined)."
  },
  {
   "property": "C171",
   "status": "proved",
   "theorems": [
    "Ulz.Props.rc4_test_prints",
    "Ulz.Props.rc4_test_overflow"
   ],
   "note": "Together the exact limit on the argument."
  },
  {
   "property": "C172",
   "status": "proved",
   "theorems": [
    "Ulz.Props.crypto_hash_correct",
    "Ulz.Props.crypto_hash_small",
    "Ulz.Props.sha512_to_str_correct",
    "Ulz.Props.sha512_selftest_passes"
   ],
   "note": "for all messages below 2^64 bytes; the self-test for all random bytes and all initial contents of the arrays"
  },
  {
   "property": "C173",
   "status": "proved",
   "theorems": [
    "Ulz.Props.sha512_hash_correct",
    "Ulz.Props.sha512_hash_full_reads",
    "Ulz.Props.sha512_hash_short_reads",
    "Ulz.Props.sha512_hash_fails",
    "Ulz.Props.sha512_test_prints",
    "Ulz.Props.sha512_test_null"
   ],
   "note": "positive for reads that deliver whole blocks; negative for short reads (two files with one digest) and for empty or unreadable files (null dereference)"
  },
  {
   "property": "C174",
   "status": "proved",
   "theorems": [
    "Ulz.Props.sblist_from_data_refines",
    "Ulz.Props.sblist_from_data_fixed"
   ],
   "note": "for every memory size, also no multiple of the item size; any allocation failures"
  },
  {
   "property": "C175",
   "status": "proved",
   "theorems": [
    "Ulz.Props.sblist_from_short_data_dangles",
    "Ulz.Props.sblist_from_foreign_data_free",
    "Ulz.Props.sblist_from_data_free"
   ],
   "note": "negative: memory below one item on systems where realloc(p, 0) frees; sblist_free on memory that is not the allocator's"
  },
  {
   "property": "C176",
   "status": "proved",
   "theorems": [
    "Ulz.Props.nextsection_prints",
    "Ulz.Props.nextsection_clean",
    "Ulz.Props.nextsection_complete",
    "Ulz.Props.nextsection_stops",
    "Ulz.Props.nextsection_null"
   ],
   "note": "partly negative: the loop ends at the first section of the name with no lines, and a missing file is a null dereference"
  },
  {
   "property": "C177",
   "status": "proved",
   "theorems": [
    "Ulz.Props.tlist_insert_wraps",
    "Ulz.Props.tlist_every_size"
   ],
   "note": "negative: the 32-bit count wraps to 0 without an error"
  },
  {
   "property": "C178",
   "status": "proved",
   "theorems": [
    "Ulz.Props.sblist_iter_visits",
    "Ulz.Props.sblist_iter_delete",
    "Ulz.Props.sblist_iter_delete_skips",
    "Ulz.Props.tglist_foreach_delete"
   ],
   "note": "partly negative: a loop that deletes without stepping back misses items exactly if two neighbours are to be deleted"
  },
  {
   "property": "C179",
   "status": "proved",
   "theorems": [
    "Ulz.Props.sblist_iter_worklist"
   ],
   "note": ""
  },
  {
   "property": "C180",
   "status": "proved",
   "theorems": [
    "Ulz.Props.hbmap_any_hash",
    "Ulz.Props.hbmap_one_bucket",
    "Ulz.Props.hbmap_split_keys"
   ],
   "note": "partly negative: keys that compare equal but fall into different buckets are different keys to the map"
  },
  {
   "property": "C181",
   "status": "proved",
   "theorems": [
    "Ulz.Props.normalizepath_cstr_overlap",
    "Ulz.Props.normalizepath_cstr_inplace",
    "Ulz.Props.normalizepath_cstr_inplace_fail",
    "Ulz.Props.normalizepath_cstr_behind"
   ],
   "note": "partly negative: a failing call in place may change the path; an output inside the path overruns every object"
  },
  {
   "property": "C182",
   "status": "proved",
   "theorems": [
    "Ulz.Props.fileparser_test_prints",
    "Ulz.Props.fileparser_test_copies",
    "Ulz.Props.fileparser_test_runs",
    "Ulz.Props.fileparser_test_silent",
    "Ulz.Props.stringptr_test1_saves"
   ],
   "note": "partly negative: stops silently at a line of 1024 bytes; prints nothing from a pipe"
  },
  {
   "property": "C183",
   "status": "proved",
   "theorems": [
    "Ulz.Props.strmap_is_map",
    "Ulz.Props.strmap_key_changed",
    "Ulz.Props.strmap_one_buffer"
   ],
   "note": "partly negative: a key string that changes, or one buffer used for all keys, breaks the map"
  },
  {
   "property": "C184",
   "status": "proved",
   "theorems": [
    "Ulz.Props.bmap_bench_result",
    "Ulz.Props.bmap_bench_runs",
    "Ulz.Props.hbmap_bench_result",
    "Ulz.Props.hbmap_bench_overflows",
    "Ulz.Props.hbmap_bench_hash"
   ],
   "note": "partly negative: hbmap_bench overflows an int for usual values of rand(); both leak one string per round"
  },
  {
   "property": "C185",
   "status": "proved",
   "theorems": [
    "Ulz.Props.process_open_low_pipe",
    "Ulz.Props.process_open_iff_std",
    "Ulz.Props.daemon_process_open"
   ],
   "note": "partly negative: process_open fails whenever one of the descriptors 0, 1 and 2 is closed in the caller"
  },
  {
   "property": "C186",
   "status": "proved",
   "theorems": [
    "Ulz.Props.strtoint64_text",
    "Ulz.Props.strtoint_text",
    "Ulz.Props.ipv4_accepted"
   ],
   "note": "partly negative: texts of 19 and more characters are always undefined behaviour"
  },
  {
   "property": "C187",
   "status": "proved",
   "theorems": [
    "Ulz.Props.base64dec_frame",
    "Ulz.Props.base64dec_too_long",
    "Ulz.Props.base64dec_long_refused",
    "Ulz.Props.base64enc_str_frame",
    "Ulz.Props.readline_userbuf_frame",
    "Ulz.Props.normalizepath_cstr_frame",
    "Ulz.Props.normalizepath_cstr_fail_writes",
    "Ulz.Props.psp_normalize_frame"
   ],
   "note": "partly negative: 2^31 symbols overflow the counter of base64dec; a refused path leaves traces in the output"
  },
  {
   "property": "C188",
   "status": "proved",
   "theorems": [
    "Ulz.Props.hstrmap_is_map",
    "Ulz.Props.hstrmap_key_changed",
    "Ulz.Props.hstrmap_one_buffer"
   ],
   "note": "partly negative: an entry whose key string changes is lost under its old string, and under the new one unless both share a bucket"
  },
  {
   "property": "C189",
   "status": "proved",
   "theorems": [
    "Ulz.Props.intcmp_exact",
    "Ulz.Props.intmap_is_map",
    "Ulz.Props.intlist_insert_sorted",
    "Ulz.Props.intlist_insert_overflow",
    "Ulz.Props.intcmp_wrap_side",
    "Ulz.Props.intcmp_wrap_cycle",
    "Ulz.Props.test_bmap_int"
   ],
   "note": "partly negative: keys further apart than 2^31-1 make the comparison of the tests and examples undefined, and wrapping arithmetic makes it no order"
  },
  {
   "property": "C190",
   "status": "proved",
   "theorems": [
    "Ulz.Props.stdin_pieces",
    "Ulz.Props.stdin_pieces_unique",
    "Ulz.Props.stdin_keep",
    "Ulz.Props.stdin_lines",
    "Ulz.Props.stdin_lines_iff",
    "Ulz.Props.stdin_one_byte",
    "Ulz.Props.stdin_huge_size"
   ],
   "note": "partly negative: lines that do not fit, a last line without newline and zero bytes lose text, a buffer of one byte makes the loop endless, a size that is no int makes every input look empty"
  },
  {
   "property": "C191",
   "status": "proved",
   "theorems": [
    "Ulz.Props.sblist_insert_sorted_any",
    "Ulz.Props.sblist_insert_sorted_max",
    "Ulz.Props.sblist_insert_sorted_pure",
    "Ulz.Props.tglist_insert_sorted_any",
    "Ulz.Props.tglist_insert_sorted_pure",
    "Ulz.Props.sblist_bsearch_any",
    "Ulz.Props.sblist_bsearch_pure",
    "Ulz.Props.sblist_buffers",
    "Ulz.Props.tglist_buffers"
   ],
   "note": "termination, safety and number of calls hold for every comparison function, also one with state that contradicts itself; the exact sequence of buffer sizes shows quadratic growth for sblist and linear for tglist"
  },
  {
   "property": "C192",
   "status": "proved",
   "theorems": [
    "Ulz.Props.bmap_insert_present",
    "Ulz.Props.bmap_insert_absent",
    "Ulz.Props.bmap_insert_loop_even",
    "Ulz.Props.bmap_insert_loop_odd",
    "Ulz.Props.bmap_delete_thrice",
    "Ulz.Props.bmap_delete_increment",
    "Ulz.Props.bmap_delete_increment_end",
    "Ulz.Props.hbmap_insert_four",
    "Ulz.Props.bmap_fini_flags",
    "Ulz.Props.min_max_again",
    "Ulz.Props.tglist_add_lazy"
   ],
   "note": "negative: the map macros evaluate KEY and POS several times, with the exact outcome; bmap_fini's flags lack parentheses. hbmap_delete and hbmap_getkey with it++ are unsequenced in C and not modelled"
  },
  {
   "property": "C193",
   "status": "proved",
   "theorems": [
    "Ulz.Props.normalizepath_any_length",
    "Ulz.Props.normalizepath_cstr_any_buffer",
    "Ulz.Props.normalize_room",
    "Ulz.Props.normalizepath_way_too_long",
    "Ulz.Props.getpathdiff_any_length"
   ],
   "note": "exact: the functions are right if and only if the room fits; otherwise they write behind the buffer. Generalises C57 and C58, which assume the path itself fits"
  },
  {
   "property": "C194",
   "status": "proved",
   "theorems": [
    "Ulz.Props.tlist_priorities_distinct",
    "Ulz.Props.tlist_lookup_calls",
    "Ulz.Props.tlist_insert_calls",
    "Ulz.Props.tlist_delete_calls",
    "Ulz.Props.tlist_orders",
    "Ulz.Props.tlist_average_lookup",
    "Ulz.Props.tlist_average_insert",
    "Ulz.Props.tlist_average_delete"
   ],
   "note": "exact number of nested calls for lookup and insertion after every history, bounds from both sides for deletion; averages are over all n! index sequences, not over a distribution of seeds (the seed is fixed). Complements the worst case of C155"
  },
  {
   "property": "C195",
   "status": "proved",
   "theorems": [
    "Ulz.Props.sblist_pointer",
    "Ulz.Props.sblist_pointer_shows",
    "Ulz.Props.sblist_pointer_blocks",
    "Ulz.Props.sblist_pop_pointer",
    "Ulz.Props.tglist_pointer",
    "Ulz.Props.tglist_pointer_shows",
    "Ulz.Props.tlist_pointer"
   ],
   "note": "exact for sblist and tglist; for tlist a deleted item's pointer shows no item unless malloc returns the address again. Sorting in place is not among the calls"
  },
  {
   "property": "C196",
   "status": "proved",
   "theorems": [
    "Ulz.Props.tgilist_pointer",
    "Ulz.Props.tgilist_pointer_room",
    "Ulz.Props.bmap_pointer",
    "Ulz.Props.bmap_pointer_own",
    "Ulz.Props.bmap_pointer_undisturbed",
    "Ulz.Props.hbmap_pointer",
    "Ulz.Props.bmap_tgilist_pointer"
   ],
   "note": "exact; every growth of an array counts as a new buffer, as ISO C has it"
  },
  {
   "property": "C197",
   "status": "proved",
   "theorems": [
    "Ulz.Props.bmap_shared_lookups",
    "Ulz.Props.bmap_serial_lookups",
    "Ulz.Props.bmap_shared_swap",
    "Ulz.Props.hbmap_shared_lookups",
    "Ulz.Props.hbmap_shared_contains",
    "Ulz.Props.hbmap_serial_lookups"
   ],
   "note": "exact; accesses are taken as atomic, the best case; hbmap_contains is treated apart from hbmap_find and hbmap_get, programs that mix them are covered only by the serial theorem"
  },
  {
   "property": "C198",
   "status": "proved",
   "theorems": [
    "Ulz.Props.crc_forge",
    "Ulz.Props.crc_xor",
    "Ulz.Props.crc_combine",
    "Ulz.Props.crc32_same_iff",
    "Ulz.Props.crc32c_same_iff",
    "Ulz.Props.crc32_trailing_zeros",
    "Ulz.Props.crc32c_trailing_zeros",
    "Ulz.Props.crc32_leading_zeros",
    "Ulz.Props.crc32c_leading_zeros"
   ],
   "note": "exact"
  },
  {
   "property": "C199",
   "status": "proved",
   "theorems": [
    "Ulz.Props.md5_length_extension",
    "Ulz.Props.md5_secret_prefix",
    "Ulz.Props.sha512_length_extension",
    "Ulz.Props.digest_collisions_extend"
   ],
   "note": "exact; the SHA-512 part needs the total length below 2^64, as C24"
  },
  {
   "property": "C200",
   "status": "proved",
   "theorems": [
    "Ulz.Props.ssalloc_same_block",
    "Ulz.Props.ssalloc_behind_pool",
    "Ulz.Props.ssalloc_lost_free",
    "Ulz.Props.ssalloc_serial",
    "Ulz.Props.ssalloc_one_thread",
    "Ulz.Props.ssalloc_threads_iff"
   ],
   "note": "steps are atomic and seen by all at once; the exact condition is for threads that only allocate"
  },
  {
   "property": "C201",
   "status": "proved",
   "theorems": [
    "Ulz.Props.base64_texts_of",
    "Ulz.Props.base64_text_count",
    "Ulz.Props.base64dec_terminated_iff",
    "Ulz.Props.base64enc_pieces_iff",
    "Ulz.Props.base64dec_concat_iff"
   ],
   "note": "texts below 2^31 characters, as in C03; base64dec_terminated_iff contradicts the documented zero termination for texts that the encoder does not make"
  },
  {
   "property": "C202",
   "status": "proved",
   "theorems": [
    "Ulz.Props.stringptr_hash_extend",
    "Ulz.Props.stringptr_hash_swap",
    "Ulz.Props.stringptr_hash_flood",
    "Ulz.Props.stringptr_hash_seven",
    "Ulz.Props.hashlist_flooded"
   ],
   "note": ""
  },
  {
   "property": "C203",
   "status": "proved",
   "theorems": [
    "Ulz.Props.sblist_threads_apart",
    "Ulz.Props.sblist_threads_serial",
    "Ulz.Props.sblist_lost_item",
    "Ulz.Props.sblist_behind_block",
    "Ulz.Props.sblist_stale_block",
    "Ulz.Props.sblist_stale_item",
    "Ulz.Props.sblist_half_item",
    "Ulz.Props.sblist_early_item"
   ],
   "note": ""
  },
  {
   "property": "C204",
   "status": "proved",
   "theorems": [
    "Ulz.Props.rc4_same_key",
    "Ulz.Props.rc4_flip",
    "Ulz.Props.rc4_pieces_iff",
    "Ulz.Props.rc4_period",
    "Ulz.Props.rc4_second_byte"
   ],
   "note": ""
  },
  {
   "property": "C205",
   "status": "proved",
   "theorems": [
    "Ulz.Props.stringptr_made",
    "Ulz.Props.stringptr_grow_iff",
    "Ulz.Props.stringptr_grow_keeps",
    "Ulz.Props.stringptr_grow_moved",
    "Ulz.Props.stringptr_grow_repair",
    "Ulz.Props.stringptr_grow_room",
    "Ulz.Props.stringptr_grow_fails",
    "Ulz.Props.stringptr_free_history",
    "Ulz.Props.stringptr_shift_grow"
   ],
   "note": "stringptr_grow is plain realloc: the text pointer is not adjusted and the size includes the members"
  },
  {
   "property": "C206",
   "status": "proved",
   "theorems": [
    "Ulz.Props.stringptr_concat_iff",
    "Ulz.Props.stringptrlist_tostring_iff",
    "Ulz.Props.stringptrlist_tostring_dos_iff",
    "Ulz.Props.stringptr_replace_iff",
    "Ulz.Props.sblist_first_block_iff",
    "Ulz.Props.sblist_full_add_iff",
    "Ulz.Props.tglist_growth_fits"
   ],
   "note": "the sums and products of sizes are not checked; the exact limits are proved"
  },
  {
   "property": "C207",
   "status": "proved",
   "theorems": [
    "Ulz.Props.hashlist_bucket_locks",
    "Ulz.Props.hashlist_threads_apart",
    "Ulz.Props.hashlist_lost_bucket",
    "Ulz.Props.hashlist_erased_bucket",
    "Ulz.Props.hashlist_null_bucket",
    "Ulz.Props.hashlist_same_bucket",
    "Ulz.Props.hashlist_lost_item",
    "Ulz.Props.hashlist_stale_block"
   ],
   "note": "safe with a lock per bucket or different buckets; the failures without one are proved"
  },
  {
   "property": "C208",
   "status": "proved",
   "theorems": [
    "Ulz.Props.bitarray_threads_iff",
    "Ulz.Props.bitarray_threads_bytes",
    "Ulz.Props.bitarray_lost_bit",
    "Ulz.Props.bitarray_uninterrupted"
   ],
   "note": "exact condition for programs that use different bits; the lost bit is proved"
  },
  {
   "property": "C209",
   "status": "proved",
   "theorems": [
    "Ulz.Props.sblist_stress_iff",
    "Ulz.Props.sblist_stress_null",
    "Ulz.Props.sblist_stress_overflow",
    "Ulz.Props.sblist_stress_big",
    "Ulz.Props.sblist_stress_each",
    "Ulz.Props.tglist_stress_iff"
   ],
   "note": "passes exactly if the memory suffices; the undefined cases are proved"
  },
  {
   "property": "C210",
   "status": "proved",
   "theorems": [
    "Ulz.Props.kv_history",
    "Ulz.Props.kv_shadowed"
   ],
   "note": "all histories, on the bytes of the list"
  },
  {
   "property": "C211",
   "status": "proved",
   "theorems": [
    "Ulz.Props.sha512_context_safe",
    "Ulz.Props.sha512_context_history",
    "Ulz.Props.sha512_context_reuse",
    "Ulz.Props.sha512_end_again",
    "Ulz.Props.sha512_end_twice_differs",
    "Ulz.Props.md5_context_history"
   ],
   "note": "all sequences of calls on one context"
  },
  {
   "property": "C212",
   "status": "proved",
   "theorems": [
    "Ulz.Props.guard_history",
    "Ulz.Props.guard_alloc_aligned",
    "Ulz.Props.guard_underrun",
    "Ulz.Props.guard_free_other_size",
    "Ulz.Props.guard_test_passes"
   ],
   "note": "all sequences of calls, all sizes and page sizes"
  },
  {
   "property": "C213",
   "status": "proved",
   "theorems": [
    "Ulz.Props.op_get_any",
    "Ulz.Props.gives_any_unique",
    "Ulz.Props.op_get_zero",
    "Ulz.Props.op_hasflag_single",
    "Ulz.Props.op_no_dash",
    "Ulz.Props.op_value_is_flag"
   ],
   "note": "all argument vectors, all names"
  },
  {
   "property": "C214",
   "status": "proved",
   "theorems": [
    "Ulz.Props.mspassed_exact",
    "Ulz.Props.getutime_exact",
    "Ulz.Props.stopwatch_once",
    "Ulz.Props.stopwatch_laps",
    "Ulz.Props.stopwatch_wait",
    "Ulz.Props.sleep_measured",
    "Ulz.Props.modtime_exact",
    "Ulz.Props.modtime_compare"
   ],
   "note": "all clocks, any number of readings"
  },
  {
   "property": "C215",
   "status": "proved",
   "theorems": [
    "Ulz.Props.sblist_aligned",
    "Ulz.Props.sblist_history_aligned",
    "Ulz.Props.tglist_aligned",
    "Ulz.Props.tlist_aligned",
    "Ulz.Props.ssalloc_aligned",
    "Ulz.Props.ssalloc_not_16",
    "Ulz.Props.stringptr_aligned"
   ],
   "note": "all alignments, sizes, histories"
  },
  {
   "property": "C216",
   "status": "proved",
   "theorems": [
    "Ulz.Props.hashlist_iterate_adding",
    "Ulz.Props.hashlist_iterate_once",
    "Ulz.Props.hashlist_iterate_complete",
    "Ulz.Props.hashlist_iterate_null_stays",
    "Ulz.Props.hashlist_worklist_endless",
    "Ulz.Props.hashlist_worklist_ends"
   ],
   "note": "all bucket counts, sizes, hash functions and histories, while memory is available"
  },
  {
   "property": "C217",
   "status": "proved",
   "theorems": [
    "Ulz.Props.ssalloc_check",
    "Ulz.Props.ssalloc_check_powers",
    "Ulz.Props.ssalloc_word_bytes",
    "Ulz.Props.ssalloc_word_one",
    "Ulz.Props.ssalloc_word_history",
    "Ulz.Props.ssalloc_word_live",
    "Ulz.Props.ssalloc_word_incomplete",
    "Ulz.Props.ssalloc_word_small",
    "Ulz.Props.ssalloc_word_aligned",
    "Ulz.Props.ssalloc_sum"
   ],
   "note": "all numbers and sizes of elements, word sizes and histories"
  },
  {
   "property": "C218",
   "status": "proved",
   "theorems": [
    "Ulz.Props.readers_parser",
    "Ulz.Props.readers_split",
    "Ulz.Props.readers_list",
    "Ulz.Props.readers_stdin",
    "Ulz.Props.readers_never_agree"
   ],
   "note": "all texts, buffer sizes and successful reads"
  },
  {
   "property": "C219",
   "status": "proved",
   "theorems": [
    "Ulz.Props.process_copy_order",
    "Ulz.Props.process_copy_always",
    "Ulz.Props.process_copy_sometimes",
    "Ulz.Props.process_copy_depends",
    "Ulz.Props.process_copy_poll",
    "Ulz.Props.process_two_outputs",
    "Ulz.Props.process_close_unread_ends",
    "Ulz.Props.process_close_unread",
    "Ulz.Props.process_close_reliable"
   ],
   "note": "all texts, pipe and buffer sizes, schedules and exit codes"
  },
  {
   "property": "C220",
   "status": "proved",
   "theorems": [
    "Ulz.Props.save_read_alone",
    "Ulz.Props.save_read_outcomes",
    "Ulz.Props.save_read_part",
    "Ulz.Props.save_read_mixed",
    "Ulz.Props.save_read_null",
    "Ulz.Props.save_read_forever"
   ],
   "note": "all texts and schedules of the system calls of both processes, with reads cut short at will"
  },
  {
   "property": "C221",
   "status": "proved",
   "theorems": [
    "Ulz.Props.rotate_exact",
    "Ulz.Props.rotate_blind",
    "Ulz.Props.rotate_eof",
    "Ulz.Props.rotate_replaced",
    "Ulz.Props.rotate_shorter",
    "Ulz.Props.rotate_longer"
   ],
   "note": "all histories of changes and calls, all buffers"
  },
  {
   "property": "C222",
   "status": "proved",
   "theorems": [
    "Ulz.Props.tglist_get_outside",
    "Ulz.Props.tglist_set_outside",
    "Ulz.Props.tglist_delete_outside",
    "Ulz.Props.tglist_insert_outside",
    "Ulz.Props.tglist_deleted_readable"
   ],
   "note": "all lists, item sizes and places whose end is below 2^64 bytes"
  },
  {
   "property": "C223",
   "status": "proved",
   "theorems": [
    "Ulz.Props.rc4_box_distinct",
    "Ulz.Props.rc4_box_any",
    "Ulz.Props.rc4_keys_collide",
    "Ulz.Props.rc4_boxes_uneven"
   ],
   "note": "all keys, all tables, all key lengths; no claim that keys shorter than 211 bytes collide"
  },
  {
   "property": "C224",
   "status": "proved",
   "theorems": [
    "Ulz.Props.sortset_table",
    "Ulz.Props.sortset_unsorted",
    "Ulz.Props.sortset_twice"
   ],
   "note": "all comparison functions that are total preorders, all histories and allocation results; that adding at the end breaks it is shown for every comparison function"
  },
  {
   "property": "C225",
   "status": "proved",
   "theorems": [
    "Ulz.Props.coproc_order",
    "Ulz.Props.coproc_always",
    "Ulz.Props.coproc_never",
    "Ulz.Props.coproc_test_program"
   ],
   "note": "all answers, buffer and pipe sizes and schedules; the test program of process.c waits for ever with a process that holds its answer back"
  },
  {
   "property": "C226",
   "status": "proved",
   "theorems": [
    "Ulz.Props.closein_alone",
    "Ulz.Props.closein_exact",
    "Ulz.Props.closein_lost",
    "Ulz.Props.closein_remedy",
    "Ulz.Props.closein_fresh"
   ],
   "note": "all tables and histories; open gives the lowest free descriptor"
  },
  {
   "property": "C227",
   "status": "proved",
   "theorems": [
    "Ulz.Props.normfs_code",
    "Ulz.Props.normfs_one",
    "Ulz.Props.normfs_tree",
    "Ulz.Props.normfs_nodots",
    "Ulz.Props.normfs_dots",
    "Ulz.Props.normfs_missing",
    "Ulz.Props.normfs_refused"
   ],
   "note": "all paths shorter than PATH_MAX and all file systems; no permissions, mount points or limits"
  },
  {
   "property": "C228",
   "status": "proved",
   "theorems": [
    "Ulz.Props.confine_exact",
    "Ulz.Props.confine_escape",
    "Ulz.Props.confine_links"
   ],
   "note": "all paths shorter than PATH_MAX and all file systems"
  },
  {
   "property": "C229",
   "status": "proved",
   "theorems": [
    "Ulz.Props.words_never_missed",
    "Ulz.Props.words_exact",
    "Ulz.Props.words_exact_iff",
    "Ulz.Props.words_missed"
   ],
   "note": "all texts and words; exact limit for words without separators"
  },
  {
   "property": "C230",
   "status": "proved",
   "theorems": [
    "Ulz.Props.logread_lines",
    "Ulz.Props.logread_forge",
    "Ulz.Props.logread_fields",
    "Ulz.Props.logread_numbers"
   ],
   "note": "all messages; every write writes all (C140 for partial writes)"
  },
  {
   "property": "C231",
   "status": "proved",
   "theorems": [
    "Ulz.Props.carry_letters",
    "Ulz.Props.carry_fields",
    "Ulz.Props.carry_fields_count",
    "Ulz.Props.carry_ini"
   ],
   "note": "all data below the 2^31 limit of base64dec's counter"
  },
  {
   "property": "C232",
   "status": "proved",
   "theorems": [
    "Ulz.Props.stamps_sort",
    "Ulz.Props.stamps_same",
    "Ulz.Props.stamps_wrap",
    "Ulz.Props.stamps_negative",
    "Ulz.Props.stamps_date"
   ],
   "note": "all calendar times that localtime_r can give; that localtime_r itself goes back at the end of daylight saving time is outside the library"
  },
  {
   "property": "C233",
   "status": "proved",
   "theorems": [
    "Ulz.Props.search_uc",
    "Ulz.Props.search_star",
    "Ulz.Props.search_uc_passed",
    "Ulz.Props.search_star_passed",
    "Ulz.Props.search_uc_behind",
    "Ulz.Props.search_star_complete_iff"
   ],
   "note": "all texts and needles"
  },
  {
   "property": "C234",
   "status": "proved",
   "theorems": [
    "Ulz.Props.escape_undone_iff",
    "Ulz.Props.escape_table",
    "Ulz.Props.escape_html",
    "Ulz.Props.escape_order",
    "Ulz.Props.escape_doubled"
   ],
   "note": "all strings; memory is granted (C134 for refused memory)"
  },
  {
   "property": "C235",
   "status": "proved",
   "theorems": [
    "Ulz.Props.handles_own",
    "Ulz.Props.handles_closed",
    "Ulz.Props.handles_zero",
    "Ulz.Props.handles_inherit",
    "Ulz.Props.handles_inherit_list",
    "Ulz.Props.handles_memory",
    "Ulz.Props.handles_same"
   ],
   "note": "all answers of open, read, write, lseek and malloc; at every moment of the run"
  },
  {
   "property": "C236",
   "status": "proved",
   "theorems": [
    "Ulz.Props.settings_unique",
    "Ulz.Props.settings_split",
    "Ulz.Props.settings_list",
    "Ulz.Props.settings_resave_split",
    "Ulz.Props.settings_rounds",
    "Ulz.Props.settings_resave_list"
   ],
   "note": "all files; memory is granted and no write fails; file sizes below 2^64"
  },
  {
   "property": "C237",
   "status": "proved",
   "theorems": [
    "Ulz.Props.tgiwrap_machine",
    "Ulz.Props.tgiwrap_memory",
    "Ulz.Props.tgiwrap_added",
    "Ulz.Props.tgiwrap_alias"
   ],
   "note": "unsigned index types (C153 for signed ones); histories whose arrays stay below 2^64 bytes"
  },
  {
   "property": "C238",
   "status": "proved",
   "theorems": [
    "Ulz.Props.mapins_all",
    "Ulz.Props.mapins_once",
    "Ulz.Props.mapins_again"
   ],
   "note": "bodies that only insert; their number of insertions is bounded but the bound is arbitrary; any of them may be refused memory (mapins_again: one insertion that gets it)"
  },
  {
   "property": "C239",
   "status": "proved",
   "theorems": [
    "Ulz.Props.base64enc_str_prefix",
    "Ulz.Props.base64enc_str_through",
    "Ulz.Props.base64enc_str_through_stuck",
    "Ulz.Props.base64_start_exists",
    "Ulz.Props.base64dec_failed"
   ],
   "note": "dst_len is the size of the buffer"
  },
  {
   "property": "C240",
   "status": "proved",
   "theorems": [
    "Ulz.Props.rc4_short_cycle",
    "Ulz.Props.rc4_never_short",
    "Ulz.Props.rc4_next_byte"
   ],
   "note": "steps of the loop of rc4; rc4_next_byte ties them to the output of rc4"
  },
  {
   "property": "C241",
   "status": "proved",
   "theorems": [
    "Ulz.Props.setnum_read",
    "Ulz.Props.setnum_dos",
    "Ulz.Props.setnum_missing"
   ],
   "note": "the file is read with stringptr_fromfile and stringptr_linesplit; no read fails"
  },
  {
   "property": "C242",
   "status": "proved",
   "theorems": [
    "Ulz.Props.joinsplit_iff",
    "Ulz.Props.joinsplit_bordered",
    "Ulz.Props.joinsplit_dos_iff"
   ],
   "note": "the list of the pieces can grow"
  },
  {
   "property": "C243",
   "status": "proved",
   "theorems": [
    "Ulz.Props.doslines_any",
    "Ulz.Props.doslines_dos_iff",
    "Ulz.Props.doslines_unix_iff"
   ],
   "note": "the list of the lines can grow"
  },
  {
   "property": "C244",
   "status": "proved",
   "theorems": [
    "Ulz.Props.swap_back_iff",
    "Ulz.Props.swap_back_absent",
    "Ulz.Props.swap_back_bordered"
   ],
   "note": "memory is granted; the texts are not empty and different"
  },
  {
   "property": "C245",
   "status": "proved",
   "theorems": [
    "Ulz.Props.onepass_same_iff",
    "Ulz.Props.onepass_delete_iff",
    "Ulz.Props.onepass_char"
   ],
   "note": "memory is granted"
  },
  {
   "property": "C246",
   "status": "proved",
   "theorems": [
    "Ulz.Props.scrub_shorter",
    "Ulz.Props.scrub_forever"
   ],
   "note": "memory is granted; the strings of earlier rounds are not freed in the model"
  },
  {
   "property": "C247",
   "status": "proved",
   "theorems": [
    "Ulz.Props.onechar_same",
    "Ulz.Props.onechar_last"
   ],
   "note": ""
  }
 ]
}