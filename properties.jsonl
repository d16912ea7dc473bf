{"id": "C01", "title": "base64 round trip", "statement": "Encoding any non-empty byte string with base64enc into a buffer of BASE64ENC_BUFSIZE(n) bytes and decoding the result with base64dec into a buffer of at least BASE64DEC_BUFSIZE bytes returns n and yields exactly the original n bytes; no byte outside either buffer is touched. For the empty string decoding returns 0.", "quantifier": "every byte string of every length, every destination buffer of sufficient size and any previous content", "why_tests_cant": "byte strings are unbounded in length and there are 256^n of each length; tests sample a handful", "anchors": ["src/strlib/base64enc.c:base64enc", "src/strlib/base64dec.c:base64dec", "src/strlib/base64_tbl.c:base64_tbl", "include/strlib.h:BASE64ENC_BUFSIZE,BASE64DEC_BUFSIZE"]}
{"id": "C02", "title": "base64enc output is RFC 4648 base64", "statement": "base64enc(dst, src, n) writes exactly the RFC 4648 padded base64 text of the n bytes followed by one zero byte: BASE64ENC_BYTES(n) characters, and nothing after the terminator is modified.", "quantifier": "every byte string, every destination buffer of at least BASE64ENC_BUFSIZE(n) bytes", "why_tests_cant": "The claim is about inputs of every length and content; tests compare a few vectors, and a wrong table entry or padding case shows only for particular bytes at particular positions.", "anchors": ["src/strlib/base64enc.c:base64enc", "include/strlib.h:BASE64ENC_BYTES"]}
{"id": "C03", "title": "base64dec is safe on arbitrary text and accepts exactly padded base64", "statement": "For every zero-terminated text and every dst_len, base64dec never reads past the terminator and never writes outside the dst_len bytes of dst; it returns a non-zero size exactly when the text is non-empty, consists of whole groups of four characters of the alphabet with at most two '=' only at the very end, and dst_len exceeds BASE64DEC_BYTES; the returned size is that of the decoded data and dst is zero-terminated after the last decoded group.", "quantifier": "every zero-terminated text (malformed ones included) and every destination size including 0", "why_tests_cant": "malformed inputs and buffer sizes form an infinite space; an out-of-bounds write may go unnoticed in a test", "anchors": ["src/strlib/base64dec.c:base64dec,chrpos"]}
{"id": "C04", "title": "base64enc_str respects its buffer size and agrees with base64enc", "statement": "base64enc_str(dst, s, dst_len) never writes outside dst_len bytes; it returns 1 exactly when dst_len >= BASE64ENC_BUFSIZE(strlen s), in which case dst holds the same text base64enc would produce; otherwise it returns 0.", "quantifier": "every zero-terminated string and every dst_len including 0", "why_tests_cant": "all combinations of string length and buffer size", "anchors": ["src/strlib/base64enc_str.c:base64enc_str"]}
{"id": "C05", "title": "hex round trip", "statement": "raw2hex writes the 2n-digit lower-case hex text of any n bytes plus a terminator into a (2n+1)-byte buffer, and hex2raw of that text restores the n bytes and returns n, within an n-byte buffer.", "quantifier": "every byte string, every destination buffer content", "why_tests_cant": "There are infinitely many byte strings; tests try a few, and one wrong digit shows only for particular bytes.", "anchors": ["src/strlib/raw2hex.c:raw2hex", "src/strlib/hex2raw.c:hex2raw"]}
{"id": "C06", "title": "hex2raw reads any hex text as one big-endian number", "statement": "For every text of hex digits in either case, of even or odd length L, hex2raw writes exactly (L+1)/2 bytes, returns (L+1)/2, and the bytes read as a big-endian number equal the value of the hex text; it never writes outside a buffer of (L+1)/2 bytes, also for texts that contain non-hex characters. Its only undefined behaviour is the left shift of -1 for a non-hex character in the high half of a pair.", "quantifier": "every zero-terminated text", "why_tests_cant": "Texts of both parities, both cases and every length are covered; a test tries a handful.", "anchors": ["src/strlib/hex2raw.c:hex2raw,hval"]}
{"id": "C07", "title": "rc4 is an involution and matches the RC4 definition", "statement": "For every non-empty key, applying rc4 twice with the same key restores any input; the output has the input's length and each output byte is the input byte xored with the keystream byte of the standard RC4 key schedule, so a prefix of the input encrypts to the same prefix of the output and encrypting in place gives the same result.", "quantifier": "every key of every non-zero length, every input", "why_tests_cant": "Keys and data are unbounded; the published vectors exercise a few keys, and an index that wraps wrongly shows only for some lengths.", "anchors": ["src/strlib/rc4.c:rc4"]}
{"id": "C08", "title": "decimal conversion of 64-bit numbers is canonical and exact", "statement": "uint64ToString and int64ToString return a zero-terminated string inside the caller's buffer that is the canonical decimal numeral of the number (no leading zeros, a '-' exactly for negative numbers), for every number including 0 and INT64_MIN, and need at most 21 bytes of buffer.", "quantifier": "all 2^64 values of each type", "why_tests_cant": "There are 2^64 values; tests try a few, and errors sit at the limits of the types.", "anchors": ["src/strlib/uint64ToString.c:uint64ToString", "src/strlib/int64ToString.c:int64ToString", "src/strlib/uintToString.c:uintToString", "src/strlib/intToString.c:intToString", "src/strlib/numberToString.c:numberToString"]}
{"id": "C09", "title": "numberToString in every even base", "statement": "For every even base from 2 to 62, every number, every flag combination and every maximum length, numberToString writes only the documented number of bytes and returns a string that, read back in that base, equals the number (its magnitude for a signed negative one, preceded by '-') modulo base^maxlen when a maximum length is given; odd bases and bases above 62 return NULL without writing; base 0 is undefined behaviour for non-zero numbers.", "quantifier": "every number, base, flag set, maxlen and buffer", "why_tests_cant": "The product of numbers, bases, flags, lengths and buffers is far beyond enumeration.", "anchors": ["src/strlib/numberToString.c:numberToString", "src/strlib/conv_cypher.c:conv_cypher", "include/strlib.h:numberToString_flags"]}
{"id": "C10", "title": "utoa: exact range of correctness", "statement": "utoa writes the canonical decimal numeral of n for every n up to 3294967296 within 11 bytes, and for every larger unsigned value it writes before the start of the buffer.", "quantifier": "all 2^32 values", "why_tests_cant": "boundary inside a 2^32 domain; the out-of-bounds write is silent in a test", "anchors": ["src/strlib/utoa.c:utoa"]}
{"id": "C11", "title": "itoa: exact range of correctness", "statement": "itoa writes the canonical decimal numeral of n within 12 bytes for every int except INT_MIN, for which it has undefined behaviour.", "quantifier": "all 2^32 values", "why_tests_cant": "The boundary is one value among 2^32, and it is undefined behaviour there, which a test may not notice.", "anchors": ["src/strlib/itoa.c:itoa"]}
{"id": "C12", "title": "parsing inverts printing", "statement": "strtoint64 of the text produced by int64ToString returns the original number for every number of at most 18 digits without signed overflow, and strtoint of the text produced by intToString returns the original for every int except INT_MIN; with 19 digits strtoint64 executes a signed overflow.", "quantifier": "all 64-bit (32-bit) signed values", "why_tests_cant": "There are 2^64 values; tests try a few.", "anchors": ["src/strlib/strtoint64.c:strtoint64", "src/strlib/strtoint.c:strtoint", "src/strlib/int64ToString.c:int64ToString", "src/strlib/intToString.c:intToString"]}
{"id": "C13", "title": "IPv4 text round trip", "statement": "stringfromipv4 writes the canonical dotted-quad text of any 4 bytes (at most 15 characters plus terminator, within 16 bytes); ipv4fromstring of that text returns 1 and restores the 4 bytes, and isnumericipv4 accepts it.", "quantifier": "all 2^32 addresses", "why_tests_cant": "There are 2^32 addresses; tests try a few.", "anchors": ["src/strlib/stringfromipv4.c:stringfromipv4", "src/strlib/ipv4fromstring.c:ipv4fromstring", "src/strlib/isnumericipv4.c:isnumericipv4"]}
{"id": "C14", "title": "isnumericipv4: exact set of accepted texts", "statement": "isnumericipv4 returns 1 exactly for texts made of digits and dots only that do not start with a dot, have no two adjacent dots, have exactly three dots and between 4 and 12 digits (so it rejects anything else, but also accepts some texts that are not addresses).", "quantifier": "every zero-terminated text", "why_tests_cant": "The set of texts is infinite, and what matters is the texts nobody thought of.", "anchors": ["src/strlib/isnumericipv4.c:isnumericipv4"]}
{"id": "C15", "title": "pattern search never reports a false match, and is exact where it is exact", "statement": "A pointer returned by strstr_uc (case-insensitive, upper-case needle) or strstar ('*' matches any character) points at a real match inside the string; for one-character needles NULL means there is no match and a pointer is the first match; for longer needles NULL does not imply absence.", "quantifier": "every haystack and needle", "why_tests_cant": "Haystacks and needles are unbounded; whether a search is exact depends on how needle and haystack overlap themselves.", "anchors": ["src/strlib/strstr_uc.c:strstr_uc", "src/strlib/strstar.c:strstar"]}
{"id": "C16", "title": "findword reports an occurrence of the word with a proper right boundary", "statement": "Whenever findword returns a pointer it points at a case-insensitive occurrence of the word inside the string that is followed by the end of the string or a separator; the left-boundary guarantee fails for self-overlapping words.", "quantifier": "every text and word", "why_tests_cant": "Texts and words are unbounded; the boundaries depend on the characters around each occurrence.", "anchors": ["src/strlib/findword.c:findword"]}
{"id": "C17", "title": "character classification and case conversion", "statement": "isAlpha is exactly isLetter or isNumber, isLetter is exactly isUpper or isLower, classes agree with the ASCII ranges; makeupper/makelower change exactly the letters of the other case, are idempotent and invert each other on letters; hexval agrees with the value of hex digits and is 0 otherwise.", "quantifier": "all 256 character values", "why_tests_cant": "exhaustive claim over all characters and compositions", "anchors": ["src/strlib/isAlpha.c:isAlpha", "src/strlib/isLetter.c:isLetter", "src/strlib/isUpper.c:isUpper", "src/strlib/isLower.c:isLower", "src/strlib/isNumber.c:isNumber", "src/strlib/makeupper.c:makeupper", "src/strlib/makelower.c:makelower", "src/strlib/hexval.c:hexval", "include/strswitch.h:STRSWITCH_LETTERS, STRSWITCH_NUMBERS, STRSWITCH_ALPHA, STRSWITCH_NON_ALPHA"]}
{"id": "C18", "title": "strends and containsChar", "statement": "strends(a,b) is true exactly when b is a suffix of a; containsChar(s,c) is true exactly when the non-zero character c occurs in s (and false for NULL).", "quantifier": "every pair of strings", "why_tests_cant": "There are infinitely many pairs; the wrong cases are suffixes longer than the string and characters above 127.", "anchors": ["src/strlib/strends.c:strends", "src/strlib/containsChar.c:containsChar"]}
{"id": "C19", "title": "CRC is independent of chunking and equals the bitwise definition", "statement": "After CRC32(C)_InitTables, feeding any data in any sequence of Update calls and calling Final stores the little-endian CRC that the bit-by-bit reflected definition with the published polynomial, initial value 0xffffffff and final complement gives for the concatenated data.", "quantifier": "every byte string and every way of cutting it into update calls", "why_tests_cant": "unbounded data and exponentially many chunkings", "anchors": ["src/crc32/crc32_impl.c:InitTables,Init,Update,Final"]}
{"id": "C20", "title": "CRC detects every burst of up to 32 bits", "statement": "Two messages of the same length that differ only within a window of at most 32 consecutive bits (in transmission order), and do differ, have different CRCs; in particular every single-bit and single-byte error is detected.", "quantifier": "every message, every error pattern of span at most 32 bits at every position", "why_tests_cant": "The claim is about every message, position and error pattern of up to 32 bits; no sample can show that none of them goes undetected.", "anchors": ["src/crc32/crc32_impl.c:InitTables, Init, Update, Final"]}
{"id": "C21", "title": "CRC residue", "statement": "Appending the four bytes stored by Final to the message gives a message whose CRC is a constant that does not depend on the message.", "quantifier": "every message of any length", "why_tests_cant": "The claim is about messages of every length.", "anchors": ["src/crc32/crc32_impl.c:InitTables, Init, Update, Final"]}
{"id": "C22", "title": "MD5 is independent of chunking and equals RFC 1321", "statement": "md5_init, any sequence of md5_update calls and md5_end store the RFC 1321 MD5 digest of the concatenated data; md5_end does not change the context, so one may continue updating.", "quantifier": "every byte string and every way of cutting it into update calls", "why_tests_cant": "unbounded data and exponentially many chunkings", "anchors": ["src/md5/md5.c:md5_init, md5_update, md5_end"]}
{"id": "C23", "title": "md5str", "statement": "md5str writes the 32 lower-case hex digits of the MD5 of the data and a terminator, exactly 33 bytes.", "quantifier": "every byte string of any length", "why_tests_cant": "The claim is about inputs of every length and content.", "anchors": ["src/md5/md5str.c:md5str"]}
{"id": "C24", "title": "SHA-512 equals FIPS 180-4 for the documented chunking", "statement": "sha512_init, any sequence of updates whose sizes are multiples of 128, an optional last update of any size, and sha512_end store the FIPS 180-4 SHA-512 digest of the concatenated data, and never access outside the 256-byte internal buffer.", "quantifier": "every byte string shorter than 2^64 bytes and every documented chunking", "why_tests_cant": "The lengths go up to 2^64 bytes, and every documented division into chunks must give the same digest.", "anchors": ["src/sha512/sha512.c:sha512_init, sha512_update, sha512_end"]}
{"id": "C25", "title": "sblist behaves like a list of fixed-size items", "statement": "Starting from a fresh list with a positive item size and block size, after any sequence of add, addi, set, get, insert (at positions up to the size), delete and pop with arbitrary allocation failures, every operation returns what the same operation on a mathematical list of item values returns, and no memory outside the list's buffer is accessed.", "quantifier": "every operation sequence, item size, block size, item value and pattern of allocation failures", "why_tests_cant": "Histories are unbounded, and each allocation in them may fail; tests run short histories in which nothing fails.", "anchors": ["src/sblist/sblist.c:sblist_new, sblist_get, sblist_set, sblist_add, sblist_free", "src/sblist/sblist_addi.c:sblist_addi", "src/sblist/sblist_insert.c:sblist_insert", "src/sblist/sblist_delete.c:sblist_delete", "src/sblist/sblist_pop.c:sblist_pop"]}
{"id": "C26", "title": "sblist: a failed growth changes nothing", "statement": "When an allocation fails, sblist_add/insert/addi report failure and the list's size and contents are unchanged.", "quantifier": "every state and operation", "why_tests_cant": "Every allocation at every point of a history may fail; tests cannot make each of them fail.", "anchors": ["src/sblist/sblist.c:sblist_grow_if_needed", "src/sblist/sblist_insert.c:sblist_insert"]}
{"id": "C27", "title": "sblist_insert_sorted keeps the list sorted", "statement": "For every comparison function that is a total preorder, inserting into a sorted list yields a sorted list that is a permutation of the old items plus the new one, located at the returned index, with the old items in their old relative order; it terminates.", "quantifier": "every sorted list, item and total-preorder comparison", "why_tests_cant": "Lists and comparison functions are unbounded; an error in the search interval shows only for some lengths and positions.", "anchors": ["src/sblist/sblist_insert_sorted.c:sblist_insert_sorted", "src/sblist/sblist_insert_sorted_r.c:sblist_insert_sorted_r", "include/tglist.h:tglist_sorted_insert_pos_impl"]}
{"id": "C28", "title": "sblist_bsearch is exact", "statement": "On a sorted list sblist_bsearch returns an index whose item compares equal when one exists and -1 otherwise; it always terminates and never looks outside the list.", "quantifier": "every sorted list, item and total-preorder comparison", "why_tests_cant": "Lists and comparison functions are unbounded; an error in the search interval shows only for some lengths and positions.", "anchors": ["src/sblist/sblist_bsearch.c:sblist_bsearch", "src/sblist/sblist_bsearch_r.c:sblist_bsearch_r"]}
{"id": "C29", "title": "sblist memory bound and the zero block size", "statement": "A list whose block size is non-zero never holds more items than its allocated capacity; a list made by sblist_new_from_data (block size 0), or by sblist_new with block size 0 and items larger than 4096 bytes, overruns its buffer on the first add that succeeds.", "quantifier": "every history of adds", "why_tests_cant": "The overflow of the heap is silent, and depends on the sizes and the number of additions.", "anchors": ["src/sblist/sblist_new_from_data.c:sblist_new_from_data", "src/sblist/sblist.c:sblist_init,sblist_grow_if_needed"]}
{"id": "C30", "title": "sblist_free_values frees the wrong pointers", "statement": "The documented effect (free every stored pointer) does not hold: for every non-empty list sblist_free_values passes addresses inside the list's own buffer to free and leaves the stored pointers unfreed.", "quantifier": "every non-empty list of pointers", "why_tests_cant": "Freeing a wrong pointer is undefined: a test may pass by luck of the allocator.", "anchors": ["src/sblist/sblist_free_values.c:sblist_free_values"]}
{"id": "C31", "title": "tlist behaves like a list", "statement": "After any sequence of insert, append, delete, get and getsize on a new tlist with fewer than 2^32-1 items, each operation returns what it would on a mathematical list; insert at positions beyond the size and delete at or beyond the size return 0 and change nothing.", "quantifier": "every operation sequence and any allocation failures", "why_tests_cant": "unbounded histories; tree shapes depend on a pseudo-random sequence", "anchors": ["src/tlist/tlist.c:tlist_insert, tlist_get, tlist_delete, tlist_getsize"]}
{"id": "C32", "title": "tlist structure invariants", "statement": "In every reachable tlist each node's stored count equals the size of its subtree and no node has a smaller priority than one of its children; deleting frees exactly the node that was unlinked.", "quantifier": "every sequence of insertions and deletions, with every allocation failure and every content of the heap that decides the shape of the tree", "why_tests_cant": "The invariant must hold after every history; tests look at the contents, not at the tree.", "anchors": ["src/tlist/tlist.c:merge,split,remove,insert"]}
{"id": "C33", "title": "tlist_get outside the list", "statement": "The documented NULL for an index at or beyond the size is not delivered: tlist_get returns a non-null pointer that does not point to an item, and indices are taken modulo 2^32.", "quantifier": "every list and out-of-range index", "why_tests_cant": "Reading outside is undefined: whether a test notices depends on the memory around.", "anchors": ["src/tlist/tlist.c:tlist_get,data,getitem"]}
{"id": "C34", "title": "tlist deep delete frees an interior pointer", "statement": "tlist_delete_deep on a valid index passes the address of the stored pointer inside the node, not the stored pointer, to free.", "quantifier": "every non-empty list and every index in it", "why_tests_cant": "Freeing a pointer into a block is undefined: a test may pass by luck of the allocator.", "anchors": ["src/tlist/tlist.c:tlist_delete_impl"]}
{"id": "C35", "title": "tlist_free_items empties the list", "statement": "tlist_free_items terminates, leaves size 0 and frees every node exactly once.", "quantifier": "every list that can be reached by a sequence of calls", "why_tests_cant": "Trees of every size and shape must be freed completely and without freeing a node twice; tests do not count the nodes.", "anchors": ["src/tlist/tlist.c:tlist_free_items_impl"]}
{"id": "C36", "title": "tglist behaves like a list", "statement": "After any sequence of add, set, get, insert (up to the size) and delete (below the size) with arbitrary allocation failures each operation acts as on a mathematical list, a failing operation changes nothing, accesses stay inside the allocation, and the capacity is 0 or 4*2^k.", "quantifier": "every sequence of calls with positions inside the list, every item size and every pattern of allocation failures", "why_tests_cant": "Histories are unbounded, and each allocation in them may fail.", "anchors": ["include/tglist.h:tglist_add, tglist_get, tglist_set, tglist_insert, tglist_delete, tglist_free_items"]}
{"id": "C37", "title": "tgilist behaves like a list and rolls back on failure", "statement": "After any sequence of add, insert, set, get and delete with arbitrary allocation failures in either of its two internal arrays, tgilist acts as a mathematical list; a failing add or insert changes nothing observable; as long as the number of values ever added fits the index type.", "quantifier": "every valid operation sequence and failure schedule", "why_tests_cant": "Histories are unbounded, and each of the two allocations in a call may fail separately.", "anchors": ["include/tgilist.h:tgilist_add, tgilist_get, tgilist_set, tgilist_insert, tgilist_delete, tgilist_free_items"]}
{"id": "C38", "title": "bmap is a finite map", "statement": "After any sequence of bmap_insert, lookups and deletes, with a comparison function that is a total order up to equality of keys, bmap_get returns the value of the last insert for that key not followed by its deletion, keys are strictly sorted and unique, and keys and values stay aligned.", "quantifier": "every sequence of calls, every comparison function that is a weak order, every key and value size, every pattern of allocation failures", "why_tests_cant": "Histories and comparison functions are unbounded; errors show only for particular orders of insertions and deletions.", "anchors": ["include/bmap.h:bmap_insert, bmap_find, bmap_get, bmap_delete, bmap_fini"]}
{"id": "C39", "title": "bmap insertion failure", "statement": "If memory runs out during an insertion the map is unchanged; bmap_insert_nocheck then reports -1, but bmap_insert reports a valid-looking index when only the value array failed to grow.", "quantifier": "every state and failure point", "why_tests_cant": "The second of two allocations must fail at a chosen point of a history, which tests do not arrange.", "anchors": ["include/bmap.h:bmap_insert,bmap_insert_nocheck"]}
{"id": "C40", "title": "hbmap is a finite map", "statement": "After any sequence of hbmap_insert and hbmap_delete of found entries, hbmap_find/hbmap_get agree with a mathematical map for every hash function compatible with the key comparison and every bucket count from 1 to 2^32-1.", "quantifier": "every history, hash function, bucket count", "why_tests_cant": "unbounded histories and arbitrary hash functions", "anchors": ["include/hbmap.h:hbmap_insert, hbmap_find, hbmap_get, hbmap_delete, hbmap_fini"]}
{"id": "C41", "title": "hbmap_foreach visits every entry exactly once", "statement": "Iterating an unmodified hbmap with hbmap_foreach terminates and yields each valid entry exactly once, in bucket order.", "quantifier": "every map that can be reached by a sequence of calls, with any number of buckets and any hash function", "why_tests_cant": "The claim is about every map; empty buckets at the start, in the middle and at the end are the cases that go wrong.", "anchors": ["include/hbmap.h:hbmap_foreach,hbmap_next_valid_impl"]}
{"id": "C42", "title": "hashlist lookup", "statement": "hashlist_get(h) after any sequence of adds holds, in insertion order, exactly the values whose hash is congruent to h modulo the bucket count, so every value added under h is found; failed adds store nothing; the failure of growing a bucket is reported as 1, not as the documented -1.", "quantifier": "every history of adds and failures", "why_tests_cant": "Histories, hash values and allocation failures are unbounded.", "anchors": ["src/hashlist/hashlist.c:hashlist_new, hashlist_add, hashlist_get"]}
{"id": "C43", "title": "hashlist iteration", "statement": "If no add failed, repeatedly calling hashlist_next from a fresh iterator yields every stored value exactly once and then NULL forever; a bucket left empty by a failed add or by deletions makes one call return NULL in the middle, after which the iteration goes on.", "quantifier": "every table that can be reached by adding items, with any number of buckets", "why_tests_cant": "The claim is about every table; empty buckets are the cases that go wrong.", "anchors": ["src/hashlist/hashlist_iterator.c:hashlist_iterator_init, hashlist_next"]}
{"id": "C44", "title": "kv_find returns the first match", "statement": "kv_find returns 1 and the value of the first entry whose key equals the wanted bytes, or 0 and leaves the result untouched when there is none.", "quantifier": "every list and key", "why_tests_cant": "Lists are unbounded; which of several equal keys is found shows only with duplicates.", "anchors": ["src/kvlist/kvlist.c:kv_find"]}
{"id": "C45", "title": "stringptr comparison, search and hash", "statement": "stringptr_eq is byte-wise equality of contents (and true for two NULLs); stringptr_contains is true exactly for substrings; stringptr_here(h,pos,n) is true exactly when n occurs at pos, for pos up to the size; equal strings hash equally and hashes are below 2^28.", "quantifier": "every pair of strings and position", "why_tests_cant": "Strings and positions are unbounded; the wrong cases are needles that reach over the end.", "anchors": ["src/stringptr/stringptr_eq.c:stringptr_eq", "src/stringptr/stringptr_contains.c:stringptr_contains", "src/stringptr/stringptr_here.c:stringptr_here", "src/stringptr/stringptr_hash.c:stringptr_hash"]}
{"id": "C46", "title": "stringptr_hash does not depend on the platform's word width", "statement": "stringptr_hash gives the same value whether uint_fast32_t has 32 or 64 bits.", "quantifier": "every string, on platforms with 32-bit and with 64-bit words", "why_tests_cant": "A test runs on one platform; the claim compares two for every string.", "anchors": ["src/stringptr/stringptr_hash.c:stringptr_hash"]}
{"id": "C47", "title": "stringptr trimming and searching from the right", "statement": "shiftright/shiftleft drop exactly count bytes from the front/back or change nothing and return 0; chomp removes exactly the maximal suffix of CR and LF bytes and returns its length, keeping the string terminated; rchr returns the last occurrence or NULL.", "quantifier": "every string and every number of characters", "why_tests_cant": "Strings are unbounded; strings made only of the trimmed characters and empty ones are the cases that go wrong.", "anchors": ["src/stringptr/stringptr_shiftright.c:stringptr_shiftright", "src/stringptr/stringptr_shiftleft.c:stringptr_shiftleft", "src/stringptr/stringptr_chomp.c:stringptr_chomp", "src/stringptr/stringptr_rchr.c:stringptr_rchr"]}
{"id": "C48", "title": "stringptr copying", "statement": "stringptr_copy, stringptr_strdup and stringptr_concat produce a fresh, zero-terminated buffer holding exactly the contents (the concatenation for concat) and the right size, inside the allocation.", "quantifier": "every list of strings", "why_tests_cant": "Strings and lists are unbounded, and each allocation may fail.", "anchors": ["src/stringptr/stringptr_copy.c:stringptr_copy", "src/stringptr/stringptr_strdup.c:stringptr_strdup", "src/stringptr/stringptr_concat.c:stringptr_concat", "src/stringptr/stringptr_new.c:stringptr_new"]}
{"id": "C49", "title": "splitting at a character", "statement": "stringptr_splitc returns the pieces between occurrences of the delimiter, in order: joining them with the delimiter gives the original, no piece contains it, there is one more piece than occurrences; the buffer afterwards is the original with every delimiter and the byte after the end replaced by zero.", "quantifier": "every string and delimiter below 128", "why_tests_cant": "Strings are unbounded; delimiters at the ends and next to each other are the cases that go wrong.", "anchors": ["src/stringptrlist/stringptr_splitc.c:stringptr_splitc"]}
{"id": "C50", "title": "splitting at a string", "statement": "For a non-empty delimiter stringptr_splits returns the pieces of the left-to-right non-overlapping split: joining them with the delimiter gives the original and the number of pieces is matches plus one; with an empty delimiter it never terminates.", "quantifier": "every string and delimiter", "why_tests_cant": "Strings and delimiters are unbounded; delimiters that overlap themselves are the cases that go wrong.", "anchors": ["src/stringptrlist/stringptr_splits.c:stringptr_splits"]}
{"id": "C51", "title": "stringptr_replace", "statement": "stringptr_replace returns a new string in which every left-to-right non-overlapping occurrence of the non-empty pattern is replaced, with the exact size and no byte left unwritten; replacing a pattern by itself returns the original contents.", "quantifier": "every buffer, pattern and replacement", "why_tests_cant": "Texts, patterns and replacements are unbounded; patterns that overlap themselves are the cases that go wrong.", "anchors": ["src/stringptrlist/stringptr_replace.c:stringptr_replace"]}
{"id": "C52", "title": "joining lines", "statement": "stringptrlist_tostring (tostring_dos) returns every entry followed by LF (CR LF), with the exact size; splitting the result of tostring at LF gives back the entries plus a final empty one when no entry contains LF.", "quantifier": "every list of strings, every allocation outcome", "why_tests_cant": "Lists are unbounded; empty lists and empty strings are the cases that go wrong.", "anchors": ["src/stringptrlist/stringptrlist_tostring.c:stringptrlist_tostring", "src/stringptrlist/stringptrlist_tostring_dos.c:stringptrlist_tostring_dos"]}
{"id": "C53", "title": "stringptrlist_find / contains", "statement": "stringptrlist_find returns the index of the first entry equal to the wanted string, or -1 exactly when none is; contains agrees with it.", "quantifier": "every list of strings and every string searched for", "why_tests_cant": "Lists are unbounded; which of several equal strings is found shows only with duplicates.", "anchors": ["src/stringptrlist/stringptrlist_find.c:stringptrlist_find", "src/stringptrlist/stringptrlist_contains.c:stringptrlist_contains"]}
{"id": "C54", "title": "string list file round trip", "statement": "Writing a list with stringptrlist_tofile and reading it with stringptrlist_fromfile gives the same list exactly when no entry is empty, contains LF, or is longer than 1023 bytes; reading stops at the first empty or over-long line.", "quantifier": "every list and file content", "why_tests_cant": "Lists and files are unbounded; strings with newlines and lines of the size of the buffer are the cases that go wrong.", "anchors": ["src/stringptrlist/stringptrlist_tofile.c:stringptrlist_tofile", "src/stringptrlist/stringptrlist_fromfile.c:stringptrlist_fromfile", "src/fileparser/fileparser_readline_userbuf.c:fileparser_readline_userbuf"]}
{"id": "C55", "title": "fileparser_readline enumerates the lines", "statement": "On a regular file, successive fileparser_readline calls return the LF-separated lines in order (a last line without LF included) and then the end-of-file code, as long as every line including its LF fits the buffer; a line that does not fit yields -3 and leaves the position unchanged.", "quantifier": "every file content and buffer size", "why_tests_cant": "Files and buffer sizes are unbounded; lines whose end falls on the border of the buffer are the cases that go wrong.", "anchors": ["src/fileparser/fileparser_readline_userbuf.c:fileparser_readline_userbuf", "src/fileparser/fileparser_readline.c:fileparser_readline"]}
{"id": "C56", "title": "fileparser_getnextlinelength", "statement": "fileparser_getnextlinelength returns the length of the next line, of any length, without moving the position, except that it returns -1 for an unterminated last line whose length is a positive multiple of 1024 (and at end of file).", "quantifier": "every file and position", "why_tests_cant": "Files and positions are unbounded; lines at the border of the buffer are the cases that go wrong.", "anchors": ["src/fileparser/fileparser_getnextlinelength.c:fileparser_getnextlinelength"]}
{"id": "C57", "title": "normalizepath resolves a path", "statement": "For every absolute path shorter than PATH_MAX, normalizepath succeeds exactly when no '..' climbs above the root, and then yields '/' followed by the remaining components joined by '/' (just '/' if none), where empty and '.' components are dropped and '..' removes the previous component; relative paths fail. It reads at most the terminator and writes only within the original path's bytes.", "quantifier": "every path shorter than PATH_MAX", "why_tests_cant": "Paths are unbounded; sequences of dots and slashes combine in ways no list of examples covers.", "anchors": ["src/filelib/normalizepath.c:normalizepath"]}
{"id": "C58", "title": "normalizepath_cstr agrees with normalizepath and is idempotent", "statement": "normalizepath_cstr computes the same function within an output buffer of strlen(path)+1 bytes; normalizing a normalized path changes nothing.", "quantifier": "every path and every output buffer that is large enough", "why_tests_cant": "Paths are unbounded, and the bound on what is written must hold for each of them.", "anchors": ["src/filelib/normalizepath_cstr.c:normalizepath_cstr"]}
{"id": "C59", "title": "getpathdiff", "statement": "When the second normalized path extends the first as a string, getpathdiff stores the remaining part, zero-terminated, and returns its length; it returns -1 when the second is shorter or a longer path does not extend the first; for equally long different paths it returns 0, and the difference does not start with '/' when the first is no whole component of the second.", "quantifier": "every pair of paths", "why_tests_cant": "Pairs of paths are unbounded; common prefixes that end inside a component are the cases that go wrong.", "anchors": ["src/filelib/getpathdiff.c:getpathdiff"]}
{"id": "C60", "title": "file name and extension", "statement": "getfilename returns what follows the last '/', NULL if there is none; getFileExt returns what follows the last '.' that is not the first character, and for a non-empty name without such a dot everything after the first character.", "quantifier": "every file name", "why_tests_cant": "Names are unbounded; names without a dot or slash and names that end with one are the cases that go wrong.", "anchors": ["src/filelib/getfilename.c:getfilename", "src/filelib/getfileext.c:getFileExt"]}
{"id": "C61", "title": "mktempdir never overruns its buffer", "statement": "For every prefix and buffer size mktempdir either returns 0 or leaves in the buffer a zero-terminated path whose length is the returned value, made of the chosen directory, the prefix and six letters or digits, for which mkdir succeeded; it writes only inside the buffer.", "quantifier": "every prefix, buffer size, random sequence and mkdir outcome", "why_tests_cant": "Every prefix, buffer size and answer of mkdir must be safe; a test sees one environment.", "anchors": ["src/filelib/mktempdir.c:mktempdir", "src/filelib/ulz_mkdtemp.c:ulz_mkdtemp"]}
{"id": "C62", "title": "formatted printing stays inside the buffer", "statement": "For every format string of literals and the supported conversions with one-digit precisions, ulz_snprintf with destsize >= 1 writes only inside dest, terminates it, and returns the number of characters stored, which is the smaller of the full length and destsize-1, the stored text being that prefix of the full text; with a NULL dest it returns the full length.", "quantifier": "every format, argument list and destination size", "why_tests_cant": "Formats, arguments and sizes are unbounded, and a write behind the buffer may go unnoticed.", "anchors": ["src/format/ulz_vsnprintf.c:ulz_vsnprintf"]}
{"id": "C63", "title": "formatted text of each conversion", "statement": "%d, %u, %ld, %lu, %lld, %llu, %zd, %zu print the canonical decimal of the argument, %s the string, %c the character, %% a percent sign, and a one-digit precision pads decimal numbers with zeros to exactly that many digits, cutting higher digits off; %x prints negative ints as 16 hex digits.", "quantifier": "every argument value", "why_tests_cant": "There are 2^64 arguments for each conversion; tests try a few.", "anchors": ["src/format/ulz_vsnprintf.c:ulz_vsnprintf", "src/strlib/numberToString.c:numberToString"]}
{"id": "C64", "title": "precision parsing", "statement": "A one-digit precision is taken as is; a two-digit precision is taken as its first digit; three or more digits can exceed the 32-byte conversion buffer, giving undefined behaviour.", "quantifier": "every format text with a precision", "why_tests_cant": "Formats are unbounded; tests use one or two precisions.", "anchors": ["src/format/ulz_vsnprintf.c:ulz_vsnprintf"]}
{"id": "C65", "title": "timestamp format", "statement": "For every calendar time with year 0..9999, timestamp writes 'YYYY-MM-DD HH:MM:SS' (19 characters) into a 20-byte buffer; for every other year that fits an int it writes a minus sign if the year is negative and the four lowest digits; smaller buffers get a terminated prefix. Later years overflow an int.", "quantifier": "every calendar time", "why_tests_cant": "Tests see the times at which they run.", "anchors": ["src/timelib/timestamp.c:timestamp", "src/logger/log_timestamp.c:log_timestamp"]}
{"id": "C66", "title": "INI sections", "statement": "iniparser_get_section returns the line after the first header line of that section and the number of lines up to the next header or the end; successive iniparser_get_next_section calls visit every section of that name in order and then return the empty section.", "quantifier": "every list of lines and every section name", "why_tests_cant": "Files are unbounded; sections that are repeated, empty or last are the cases that go wrong.", "anchors": ["src/iniparser/iniparser.c:iniparser_get_section, iniparser_getvalue"]}
{"id": "C67", "title": "INI values", "statement": "iniparser_getvalue returns the text after 'key=' of the first line in the section that starts with 'key=', a NULL result exactly when there is none, and never looks outside the section.", "quantifier": "every list of lines, section and key", "why_tests_cant": "Files, sections and keys are unbounded; keys that are prefixes of others are the cases that go wrong.", "anchors": ["src/iniparser/iniparser.c:iniparser_get_section, iniparser_getvalue"]}
{"id": "C68", "title": "INI section count", "statement": "iniparser_count_sections counts exactly the lines of at least 3 bytes that start with '[' and, ignoring trailing blanks and tabs, end with ']'.", "quantifier": "every list of lines", "why_tests_cant": "Files are unbounded; broken section lines are the cases that go wrong.", "anchors": ["src/iniparser/iniparser_count_sections.c:iniparser_count_sections"]}
{"id": "C69", "title": "command line options", "statement": "op_hasflag is true exactly when some argument is '-flag' (or '--flag' for names longer than one character); op_get returns the value of the first argument of the form '-name=value' or '-name' followed by another argument (with a second '-' allowed for longer names), NULL otherwise.", "quantifier": "every argument vector", "why_tests_cant": "Argument vectors are unbounded; names that are prefixes of others and options at the end are the cases that go wrong.", "anchors": ["src/optparser/op_get.c:op_get", "src/optparser/op_hasflag.c:op_hasflag"]}
{"id": "C70", "title": "ssalloc never hands out overlapping memory", "statement": "For every sequence of allocations and frees, two live allocations are distinct aligned elements of the pool; freeing NULL-like misaligned, foreign or already freed pointers inside or after the pool changes nothing.", "quantifier": "every sequence of allocations and releases, with every outcome of mmap", "why_tests_cant": "Histories are unbounded, and an overlap shows only when both blocks are used.", "anchors": ["include/ssalloc.c:ssa_init, ssa_alloc, ssa_free"]}
{"id": "C71", "title": "ssalloc fails only when it must", "statement": "For pool sizes that are multiples of 8, an allocation of at most the element size fails only if every element is live; for smaller pools a freed element may be unobtainable.", "quantifier": "every sequence of allocations and releases", "why_tests_cant": "Histories are unbounded; fragmentation depends on the order of releases.", "anchors": ["include/ssalloc.c:ssa_alloc"]}
{"id": "C72", "title": "bit array laws", "statement": "Setting a bit makes that bit read back as set and leaves every other bit unchanged, for every index within BA_SIZE_REQUIRED bytes; BA_GET_SWAPPED reads the mirrored bit of the same byte.", "quantifier": "every array and pair of indices", "why_tests_cant": "Arrays and index pairs are unbounded; the claim that other bits stay as they are quantifies over all of them.", "anchors": ["include/bitarray.h:BA_SIZE_REQUIRED, BA_GET, BA_SET, BA_SET_TRUE, BA_SET_FALSE"]}
{"id": "C73", "title": "guard_alloc places the guard page directly after the allocation", "statement": "The n bytes returned by guard_alloc end exactly at the protected page and start inside the mapping; guard_free unmaps exactly the mapping when n is not a multiple of the page size, and leaks the first page when it is.", "quantifier": "every n and page size that is a power of two", "why_tests_cant": "The leak shows only for multiples of the page size, and only in the memory map of the process.", "anchors": ["include/guard_alloc.c:guard_alloc, guard_free"]}
{"id": "C74", "title": "byte swapping", "statement": "byteswap16/32/64 reverse the bytes and are involutions, on little- and big-endian machines; what le16 and le32 give is stored least significant byte first on both.", "quantifier": "all 2^16, 2^32 and 2^64 values, on both byte orders", "why_tests_cant": "There are 2^64 values, and a test runs on one byte order.", "anchors": ["include/endianness.h:byteswap16, byteswap32, byteswap64, le16, le32"]}
{"id": "C75", "title": "time arithmetic", "statement": "timespec_diff is the exact signed difference in nanoseconds for normalized times, antisymmetric and additive; mspassed is the floor of the elapsed time in milliseconds; msleep/microsleep request exactly the given duration in normalized form.", "quantifier": "all normalized times whose difference is representable", "why_tests_cant": "There are 2^64 pairs of times and more; the wrong cases are borrows and negative differences.", "anchors": ["src/timelib/timespec_diff.c:timespec_diff", "src/timelib/mspassed.c:mspassed", "src/timelib/msleep.c:msleep", "src/timelib/microsleep.c:microsleep", "src/timelib/getutime.c:getutime"]}
{"id": "C76", "title": "sleep resumes after signals", "statement": "However often nanosleep is interrupted, msleep returns only after an uninterrupted completion (0) or a non-EINTR error (-1), and on success the total time slept equals the requested time.", "quantifier": "every sequence of interruptions", "why_tests_cant": "A test cannot choose when signals interrupt the call.", "anchors": ["src/timelib/msleep.c:msleep", "src/timelib/microsleep.c:microsleep"]}
{"id": "C77", "title": "log_put output", "statement": "log_put writes the concatenation of the texts of its arguments (decimal for numbers, nothing for NULL strings) followed by one newline.", "quantifier": "every argument list", "why_tests_cant": "Argument lists are unbounded.", "anchors": ["src/logger/log_put.c:log_put", "src/logger/log_puts.c:log_puts", "src/logger/log_putd.c:log_putd", "src/logger/log_putc.c:log_putc", "src/logger/log_putln.c:log_putln"]}
{"id": "C78", "title": "whole-file write and read", "statement": "stringptr_tofile returns the size exactly when everything was written, whatever partial writes occur, and what was written is always a prefix of the buffer; stringptr_fromfile returns the whole content for any pattern of partial reads of an unchanged file and never terminates if the file shrinks in between.", "quantifier": "every buffer and pattern of partial reads and writes", "why_tests_cant": "A test cannot choose how much each read or write transfers.", "anchors": ["src/stringptr/stringptr_tofile.c:stringptr_tofile", "src/stringptr/stringptr_fromfile.c:stringptr_fromfile"]}
{"id": "C79", "title": "process_open does not leak descriptors", "statement": "If process_open fails at any step, every pipe descriptor it created is closed again provided none of them is 0; on success exactly the three parent ends remain open and process_close closes them.", "quantifier": "every step at which pipe, fork or the allocation can fail, every descriptor table", "why_tests_cant": "Each step must be made to fail, with each table of open descriptors.", "anchors": ["src/proclib/process.c:process_open, process_close"]}
{"id": "C80", "title": "glob escaping and filtering in filelist_search", "statement": "The directory part handed to glob is the directory with '[', '?', '*' escaped and never exceeds the path buffer; results '.' and '..' are dropped unless asked for when hidden files are included.", "quantifier": "every directory, mask, flag set and glob result", "why_tests_cant": "Directories, masks and the results of glob are unbounded; the directory names with special characters are the cases that go wrong.", "anchors": ["src/filelist/filelist.c:filelist_search"]}
{"id": "C81", "title": "strdup_n copies one byte more than the given length", "statement": "strdup_n(s, len) returns NULL for a NULL string, length 0 or failed allocation and otherwise a fresh copy of the first len+1 bytes, so it reads outside an object that holds exactly len bytes; the copy of a whole zero-terminated string is zero-terminated.", "quantifier": "every object, length and allocation outcome", "why_tests_cant": "Reading one byte too many goes unnoticed unless the object ends at the end of mapped memory.", "anchors": ["src/strlib/strdup_n.c:strdup_n"]}
{"id": "C82", "title": "tglist_free_values frees exactly the stored pointers", "statement": "tglist_free_values on a list of pointers whose non-null pointers are distinct allocated objects frees exactly those objects, once each, skips null pointers and leaves the list empty.", "quantifier": "every such list and heap", "why_tests_cant": "double frees and leaks depend on the whole heap", "anchors": ["include/tglist.h: tglist_free_values"]}
{"id": "C83", "title": "tglist_insert_sorted keeps sorted lists sorted", "statement": "tglist_insert_sorted either stores the item at the returned index, shifting later items and, if the list was sorted by a total preorder, leaving it sorted, or returns -1 with the list unchanged, which happens only if memory was needed and refused.", "quantifier": "every list, item, comparison function and allocation outcome", "why_tests_cant": "Lists, items and comparison functions are unbounded.", "anchors": ["include/tglist.h: tglist_insert_sorted"]}
{"id": "C84", "title": "read_stdin_line's chomp", "statement": "With chomp set, read_stdin_line removes the last byte of what fgets delivered, whatever it is, so a line longer than the buffer or an unterminated last line loses a byte of text; without it the whole line is returned; at the end of input a NULL string of size 0.", "quantifier": "every line and buffer", "why_tests_cant": "Lines and buffer sizes are unbounded; empty lines and lines without a newline are the cases that go wrong.", "anchors": ["src/stringptr/read_stdin_line.c:read_stdin_line"]}
{"id": "C85", "title": "stringptr_new's size limit", "statement": "stringptr_new(n) gives a zero-terminated string of size n inside its allocation for every n with n+17 < 2^64; for every larger n the allocation size wraps around and the terminator is written outside it.", "quantifier": "every requested size up to 2^64 - 1", "why_tests_cant": "The boundary is at 2^64, which no test asks for.", "anchors": ["src/stringptr/stringptr_new.c:stringptr_new"]}
{"id": "C86", "title": "stringptr_hash is the ELF hash", "statement": "stringptr_hash returns the System V ELF (PJW) hash of the text.", "quantifier": "every string of any length", "why_tests_cant": "Strings are unbounded; bytes above 127 are the cases that go wrong.", "anchors": ["src/stringptr/stringptr_hash.c:stringptr_hash"]}
{"id": "C87", "title": "duplicating the entries of a string list", "statement": "stringptrlist_dup_entries replaces the entries in order by fresh terminated copies; it returns -1 if all allocations succeed and otherwise the index of the first that fails, the entries from there on being untouched.", "quantifier": "every list and pattern of allocation failures", "why_tests_cant": "Each of the allocations may fail.", "anchors": ["src/stringptrlist/stringptrlist_dup_entries.c:stringptrlist_dup_entries"]}
{"id": "C88", "title": "freeing the strings of a list", "statement": "stringptrlist_freestrings is a valid sequence of frees exactly when the non-NULL pointers of the entries are distinct live allocations; it then frees exactly those and clears every entry.", "quantifier": "every list and heap", "why_tests_cant": "Lists are unbounded; a test does not see which blocks are freed.", "anchors": ["src/stringptrlist/stringptrlist_freestrings.c:stringptrlist_freestrings"]}
{"id": "C89", "title": "stringptrlist_add_strdup", "statement": "After any sequence of stringptrlist_add_strdup calls on an empty list, a call returned 1 exactly when both its allocations succeeded; freeing the strings afterwards is allowed and leaves exactly the copies of those calls allocated in which the list could not grow.", "quantifier": "every sequence of calls and failures", "why_tests_cant": "Each of the allocations may fail, at any point of a history.", "anchors": ["src/stringptrlist/stringptrlist_add_strdup.c:stringptrlist_add_strdup"]}
{"id": "C90", "title": "CRC before InitTables", "statement": "An Update with at least one byte before InitTables dereferences a null pointer; without data it does nothing.", "quantifier": "every state and data", "why_tests_cant": "The result without the initialisation is plausible; tests initialise.", "anchors": ["src/crc32/crc32_impl.c: T, Update"]}
{"id": "C91", "title": "CRC Final is not idempotent", "statement": "Final changes the context: a second Final on the same context stores the bitwise complement of the CRC, and a later Update continues from the complemented state.", "quantifier": "every context", "why_tests_cant": "Tests call it once.", "anchors": ["src/crc32/crc32_impl.c: Final"]}
{"id": "C92", "title": "SHA-512's chunk size restriction is real", "statement": "Feeding data in updates whose sizes are not multiples of 128 (except the last) does not give the digest of the data: what an update has behind its last whole block of 128 bytes counts only by its length if a later update has at least as much behind its own, so that data differing only there get the same digest; two one-byte updates give a wrong one. In general what is hashed is the whole blocks of all updates, then one or two blocks in which the rests of the updates lie over each other, with the padding byte at the total length modulo 128.", "quantifier": "all sequences of updates, and all data of the same lengths", "why_tests_cant": "a test of the documented use never exercises it", "anchors": ["src/sha512/sha512.c:sha512_update"]}
{"id": "C93", "title": "precision of non-numeric conversions leaks", "statement": "A precision written with %s, %c or %% has no effect on it but is applied to the next numeric conversion that has none of its own.", "quantifier": "every string, number and precision", "why_tests_cant": "Formats are unbounded; the effect shows only in the conversion after the one with the precision.", "anchors": ["src/format/ulz_vsnprintf.c:ulz_vsnprintf"]}
{"id": "C94", "title": "unsupported formats fail", "statement": "Every format string is a sequence of literals and supported conversions, or one followed by an unsupported conversion (also a % at the end, a precision without digits, or %l/%z without d or u); in the latter case, and for a NULL %s argument, printing returns -1 and the destination holds the text so far without terminator.", "quantifier": "every format string, argument list and destination", "why_tests_cant": "Formats are unbounded; tests use supported ones.", "anchors": ["src/format/ulz_vsnprintf.c:ulz_vsnprintf"]}
{"id": "C95", "title": "printing to a descriptor or a new string", "statement": "ulz_printf and ulz_fprintf write the first 4095 characters of the formatted text (nothing for an empty one) and stringptr_format returns its first 999 characters; for an unsupported format the former read far behind their buffer and the latter returns a string whose size is the largest size_t.", "quantifier": "every format and argument list", "why_tests_cant": "Formats are unbounded, and the text may be longer than the internal buffer.", "anchors": ["src/format/ulz_fprintf.c:ulz_fprintf", "src/format/ulz_printf.c:ulz_printf", "src/stringptr/stringptr_format.c:stringptr_format"]}
{"id": "C96", "title": "writing a string list under partial writes", "statement": "stringptrlist_tofile returns 1 exactly when every write transferred all it was given, the file then holding each string followed by a line feed; otherwise it returns 0 and the file holds a proper prefix of that.", "quantifier": "every list and pattern of partial or failing writes", "why_tests_cant": "A test cannot choose how much each write transfers, nor which one fails.", "anchors": ["src/stringptrlist/stringptrlist_tofile.c:stringptrlist_tofile"]}
{"id": "C97", "title": "standard descriptors of a started process", "statement": "If 0, 1 and 2 are open in the caller and process_open succeeds, the child's descriptors 0, 1 and 2 are the read end of the first, and the write ends of the second and third pipe, whose other ends are the caller's fds[0], fds[1] and fds[2]; no other descriptor of the pipes is open in the child.", "quantifier": "every descriptor table and choice of pipe descriptors", "why_tests_cant": "Tests start with descriptors 0, 1 and 2 open; the claim is about every table.", "anchors": ["src/proclib/process.c:process_open, process_close"]}
{"id": "C98", "title": "descriptors of a daemon", "statement": "After daemonize, among the descriptors up to the limit exactly 0, 1 and 2 are open, all on /dev/null (none if that cannot be opened); the calling process ends with status 0, or 1 and a message if it could not fork.", "quantifier": "every descriptor table, limit and answer of fork", "why_tests_cant": "Tests start with one table of descriptors and one limit.", "anchors": ["src/proclib/daemonize.c:daemonize"]}
{"id": "C99", "title": "A directory with a backslash in its name", "statement": "filelist_search does not escape a backslash in the directory: for a directory name with a backslash before an ordinary character it asks glob for the directory whose name lacks the backslash, so the directory given is never the one searched. In general the pattern stands for the directory given, and only for it, exactly if that has no backslash in its name.", "quantifier": "every directory", "why_tests_cant": "a statement about every such name and about what the pattern can match", "anchors": ["src/filelist/filelist.c: cpystr_escape, filelist_search"]}
{"id": "C100", "title": "Two flipped bits, and odd numbers of flipped bits", "statement": "If two messages of the same length differ in exactly two bits, CRC32 gives them the same value exactly when the distance of the two bits is a multiple of 2^32-1, and CRC32C exactly when it is a multiple of 2^31-1; CRC32C gives different values to messages that differ in an odd number of bits, and CRC32 does not always do so.", "quantifier": "all pairs of messages, of any length and cut into any updates", "why_tests_cant": "the first undetected pair of bits is 256 or 512 MB apart and the number of pairs is unbounded", "anchors": ["src/crc32/crc32_impl.c:InitTables, Init, Update, Final"]}
{"id": "C101", "title": "CRC as remainder of polynomials", "statement": "The four bytes stored by Final are the only four bytes which, appended to the message, make the bit sequence a multiple of the generator polynomial (0x104C11DB7 or 0x11EDC6F41) after its first and last 32 bits are complemented.", "quantifier": "every message, every way of cutting it into updates, and every four bytes", "why_tests_cant": "existence and uniqueness for infinitely many messages", "anchors": ["src/crc32/crc32_impl.c:InitTables, Init, Update, Final", "include/crc32_impl.h:InitTables, Init, Update, Final"]}
{"id": "C102", "title": "The documented meaning of the CRC", "statement": "crc32_impl.h says the value stored makes 1[buf]...[buf][cbuf] a multiple of the polynomial. For CRC32C this is true of no message. For CRC32 it is true exactly of the messages whose length in bytes is 1840962096 modulo 2^32-1.", "quantifier": "every message", "why_tests_cant": "The shortest message for which the documentation is right has 1.7 GB.", "anchors": ["include/crc32_impl.h:Final", "src/crc32/crc32_impl.c: Init, Final"]}
{"id": "C103", "title": "hex prints its whole input", "statement": "The hex program prints two lower-case hexadecimal digits for every byte of its standard input, in order, and a newline, whatever the sizes of the pieces read delivers.", "quantifier": "every input and every division of it into reads of at most 1024 bytes", "why_tests_cant": "Inputs are unbounded, and a test cannot choose into which pieces reads divide them.", "anchors": ["examples/hex.c:main"]}
{"id": "C104", "title": "crc32_printer", "statement": "For a file, crc32_printer computes the CRC32C, the CRC32 and the complement of the CRC32 of the whole content, or of its first N bytes if a count N from 0 to 65536 is given. Its buffer overflows exactly if a count above 65536 or below -1 is given and the file has more than 65536 bytes.", "quantifier": "every file and every count", "why_tests_cant": "Files and counts are unbounded.", "anchors": ["examples/crc32_printer.c:main"]}
{"id": "C105", "title": "find_identical_files compares contents", "statement": "The comparison of two files says they are identical exactly if they are, or if the first is the beginning of the second and its length a multiple of 16384; together with the comparison of the sizes, a pair of files is printed exactly if its contents are equal (mode i) or different (mode n).", "quantifier": "every pair of files", "why_tests_cant": "Pairs of files are unbounded; differences at the border of the buffer are the cases that go wrong.", "anchors": ["examples/find_identical_files.c: compare_files, process_path"]}
{"id": "C106", "title": "find_identical_files and trailing slashes", "statement": "For a file found in both directories, the path built for the second directory is right exactly if both directory arguments end in a slash or neither does; with a slash on the first only, directory and file name run together.", "quantifier": "every pair of directory names and every file name", "why_tests_cant": "Names are unbounded; tests use names without a trailing slash.", "anchors": ["examples/find_identical_files.c: process_path"]}
{"id": "C107", "title": "diff output", "statement": "diff prints the sizes if they differ, then one line for each block it reports and the number of these lines. It reports nothing exactly if one file is the beginning of the other; every maximal block of differing bytes that lies at least as far from the end of the shorter file as it is long is reported with its offset and length. It never reads outside the files. For a file without content it crashes or fails an assertion.", "quantifier": "every pair of files", "why_tests_cant": "Pairs of files are unbounded; differences at the border of the buffer are the cases that go wrong.", "anchors": ["examples/diff.c: diff"]}
{"id": "C108", "title": "diff reports wrong offsets near the end of the file", "statement": "Every maximal block of differing bytes that is nearer to the end of the shorter file than it is long is reported as beginning one byte before it really does, for a block at offset 0 at offset 2^64-1.", "quantifier": "every pair of files with such a block", "why_tests_cant": "The claim is about every pair of files with such a block, of any length.", "anchors": ["examples/diff.c: diff"]}
{"id": "C109", "title": "string lists of copies", "statement": "Any sequence of stringlist_add_dup calls, whatever allocations fail, leaves a list of zero-terminated copies of the strings of the calls that returned 1, in order, and leaks nothing; stringlist_get gives NULL for every index outside the list.", "quantifier": "every sequence of strings and every pattern of allocation failures", "why_tests_cant": "Histories are unbounded, and each allocation in them may fail.", "anchors": ["include/stringlist.h: stringlist_get, stringlist_add_dup"]}
{"id": "C110", "title": "stringlist_foreach", "statement": "stringlist_foreach visits every entry once, in order, and leaves its variable NULL.", "quantifier": "every list of strings of any length", "why_tests_cant": "Lists are unbounded.", "anchors": ["include/stringlist.h: stringlist_foreach"]}
{"id": "C111", "title": "sptrlist", "statement": "sptrlist_get gives the stored pointer for an index in the list and dereferences a null pointer for any other; sptrlist_set and sptrlist_add replace and append or, with result 0, change nothing.", "quantifier": "every list, index and pointer", "why_tests_cant": "Lists and indices are unbounded, and indices outside are undefined.", "anchors": ["include/sptrlist.h:sptrlist_add, sptrlist_get, sptrlist_set, sptrlist_get_count"]}
{"id": "C112", "title": "sblist_sort", "statement": "After sblist_sort with a comparison function that is a total preorder the list holds the same items in sorted order, and sblist_bsearch finds an item exactly if the list held an equal one before.", "quantifier": "every list and every total preorder", "why_tests_cant": "Lists and comparison functions are unbounded.", "anchors": ["src/sblist/sblist_sort.c:sblist_sort", "src/sblist/sblist_bsearch.c:sblist_bsearch"]}
{"id": "C113", "title": "freeing a whole string list", "statement": "stringptrlist_freeall frees the strings of the entries, the list's buffer and the list object, each once and nothing else; NULL is ignored.", "quantifier": "every list and heap", "why_tests_cant": "A test does not see which blocks are freed, nor how often.", "anchors": ["src/stringptrlist/stringptrlist_freeall.c:stringptrlist_freeall", "src/sblist/sblist.c: sblist_free"]}
{"id": "C114", "title": "descriptors of the file parser", "statement": "fileparser_close closes the parser's descriptor exactly if it is not 0, and only once. If descriptor 0 was not open, the first fileparser_open gets it, cannot read a line through it and never closes it; any number of later open and close pairs leaves the set of open descriptors unchanged.", "quantifier": "every parser, every set of open descriptors and every number of files", "why_tests_cant": "Histories over several files are unbounded; a test does not count descriptors.", "anchors": ["src/fileparser/fileparser_close.c:fileparser_close", "src/fileparser/fileparser_open.c:fileparser_open", "src/fileparser/fileparser_readline_userbuf.c:fileparser_readline_userbuf"]}
{"id": "C115", "title": "op_printall", "statement": "op_printall prints every argument but the program's name, in order, each followed by a newline.", "quantifier": "every list of arguments", "why_tests_cant": "Argument lists are unbounded.", "anchors": ["src/optparser/op_printall.c:op_printall"]}
{"id": "C116", "title": "the stdio replacements are not replacements", "statement": "The replacement of puts never prints the newline puts prints; that of perror agrees with perror exactly for strings that are neither NULL nor empty; that of fprintf prints to standard output or error only if the compiler gives equal string literals the same address, and never to any other stream.", "quantifier": "every string, format, argument list and compiler", "why_tests_cant": "What happens is the choice of the compiler; a test sees one compiler.", "anchors": ["include/stdio-repl.h:printf, fprintf, puts"]}
{"id": "C117", "title": "codedup reports repeated blocks", "statement": "For every file and a minimum of at least one line, codedup prints reports of blocks of at least the minimal length; each lists places where the block is repeated, all of them repetitions that cannot be made longer and that do not overlap one another; longer blocks come first, then earlier ones; the blocks of two reports do not overlap. A repetition with at least one line more than the minimum after its start is reported at its first line with at least its length, unless that line lies inside a reported block or occurs again early in the block.", "quantifier": "every file, option and order in which the map is visited", "why_tests_cant": "Files are unbounded, and the order in which the map is visited is not fixed.", "anchors": ["examples/codedup.c: main, line_equal, sortitem_cmp"]}
{"id": "C118", "title": "what codedup misses", "statement": "A block repeated at the very end of the file is missed: 2n lines that consist of the same n lines twice print nothing with minimum n, with one more line they are reported. If codedup prints nothing, every repetition of the minimal length is at the end of the file or begins with a line that occurs again inside the block; for lines a, a, b, a, a, a, b, y and minimum 3 such a repetition is indeed missed.", "quantifier": "every file and option", "why_tests_cant": "The claim is about everything that is not reported, in files of any length.", "anchors": ["examples/codedup.c: main"]}
{"id": "C119", "title": "codedup -i 0 never ends", "statement": "With a minimum of 0 codedup never ends, for every file with a line to look at.", "quantifier": "every file and option", "why_tests_cant": "Tests cannot observe that a program never ends.", "anchors": ["examples/codedup.c: main"]}
{"id": "C120", "title": "codedup -w and characters above 127", "statement": "With -w, a line whose first character that is not white space is in 128..254 makes codedup call isspace with an invalid argument.", "quantifier": "every file with such a line", "why_tests_cant": "The behaviour is undefined: a test may pass by luck.", "anchors": ["examples/codedup.c: main"]}
{"id": "C121", "title": "codedup's lines", "statement": "codedup -e N reads the file as if it ended before its line N-1, counted from zero. A line of 1023 bytes is counted as two, the second of them empty.", "quantifier": "every file, read in any pieces", "why_tests_cant": "Files are unbounded; lines at the border of the buffer are the cases that go wrong.", "anchors": ["examples/codedup.c: main"]}
{"id": "C122", "title": "the line reader and failing system calls", "statement": "Whatever read and lseek answer, fileparser_readline_userbuf stays in its buffer; an error of read is returned and changes nothing; an error of lseek is returned, with the line in the buffer and the file left behind all that was read; text without line feed that does not fill the buffer is returned as a line even if the line goes on. If read delivers all it can and nothing fails the line is the next line of the file.", "quantifier": "every file, position, buffer and every answer of the system", "why_tests_cant": "all schedules and failures of the system calls", "anchors": ["src/fileparser/fileparser_readline_userbuf.c:fileparser_readline_userbuf"]}
{"id": "C123", "title": "short reads lose text", "statement": "If a line is delivered in pieces, each piece is returned as a line of its own, with success, and then as many bytes of the next line are skipped as there were pieces before the last.", "quantifier": "every line, every division into pieces, every text after it", "why_tests_cant": "A test cannot choose how much each read returns.", "anchors": ["src/fileparser/fileparser_readline_userbuf.c:fileparser_readline_userbuf"]}
{"id": "C124", "title": "stringptrlist_fromfile takes errors for the end of the file", "statement": "If reading fails in the n-th call, stringptrlist_fromfile returns 1 and the list has only the first n of the lines it would have got.", "quantifier": "every file and every failing call", "why_tests_cant": "Each call must be made to fail, at each point of the file.", "anchors": ["src/stringptrlist/stringptrlist_fromfile.c:stringptrlist_fromfile"]}
{"id": "C125", "title": "the map with indexed values is a map", "statement": "With BMAP_USE_TGILIST any sequence of at most 2^32 insertions, lookups and deletions, with any allocation failures, behaves like a mathematical map and lists its entries in key order. When memory is refused during the insertion of a new key nothing is inserted; if it is refused for the key array both insertion functions return -1, if for one of the arrays of the value list bmap_insert_nocheck returns -1 but bmap_insert an index.", "quantifier": "every sequence of operations, every comparison that is a weak order, every allocation failure", "why_tests_cant": "Histories and comparison functions are unbounded, and each allocation in them may fail.", "anchors": ["include/bmap.h: BMAP_USE_TGILIST, bmap_insert, bmap_insert_nocheck, bmap_get, bmap_delete", "include/tgilist.h:tgilist_add, tgilist_get, tgilist_set, tgilist_insert, tgilist_delete, tgilist_free_items"]}
{"id": "C126", "title": "the map with indexed values never reclaims", "statement": "With BMAP_USE_TGILIST deleted values are never reclaimed: n insertions each followed by a deletion leave an empty map that stores n values. After 2^32 of them an insertion succeeds, but its key has the value of the first insertion ever.", "quantifier": "every key, every number of values", "why_tests_cant": "The limit is reached after 2^32 operations.", "anchors": ["include/bmap.h:bmap_insert, bmap_find, bmap_get, bmap_delete, bmap_fini", "include/tgilist.h: tgilist_insert, tgilist_delete"]}
{"id": "C127", "title": "destroying a map", "statement": "bmap_fini frees the keys if bit 0 of the flags is set and keys are of the size of a pointer, the values likewise for bit 1, and the arrays, each once and nothing else, provided these pointers are distinct and allocated; otherwise there is an invalid free. With BMAP_USE_TGILIST the values of deleted entries are freed as well, so a program that frees a deleted value itself gets a double free.", "quantifier": "every map, heap and flags", "why_tests_cant": "Maps are unbounded; a test does not see which blocks are freed.", "anchors": ["include/bmap.h: bmap_fini", "include/tglist.h: tglist_free_values", "include/tgilist.h: tgilist_free_values"]}
{"id": "C128", "title": "find_identical_files walks the directories", "statement": "If all directories that exist on both sides can be listed, the files in them read, and the calls of process_path happen to return 0, find_identical_files prints, each once and on its own line, exactly the paths in the first directory of the files that exist under the same relative path in the second one and whose contents are equal (mode i) or different (other modes). It ends for every file system, also one in which directories contain themselves.", "quantifier": "every pair of directory trees, every file system and every argument list", "why_tests_cant": "all trees, unbounded depth, links that form cycles", "anchors": ["examples/find_identical_files.c: main, process_path"]}
{"id": "C129", "title": "find_identical_files stops early", "statement": "If a subdirectory of both directories cannot be listed on one side, or if the value of process_path, which lacks a return statement, is not 0, nothing that follows this subdirectory in the list of the first directory is printed and the exit status is not 0.", "quantifier": "every pair of directories with a common subdirectory", "why_tests_cant": "The value is left to the compiler; a test sees one compiler.", "anchors": ["examples/find_identical_files.c: process_path"]}
{"id": "C130", "title": "normalising paths with a drive", "statement": "Compiled with PSPLIKE_PATH, normalizepath_cstr accepts exactly the paths whose first slash is at the start or follows a colon; it normalises what follows the drive like an absolute path and keeps the drive in front; it fails if the path climbs above its root, and never writes beyond strlen(path)+1 bytes.", "quantifier": "every path with or without a drive", "why_tests_cant": "Paths are unbounded, and the tests are not compiled with this option.", "anchors": ["src/filelib/normalizepath_cstr.c: normalizepath_cstr"]}
{"id": "C131", "title": "normalising twice with a drive", "statement": "With PSPLIKE_PATH, normalising a normalised path again changes nothing, except that the root of a drive (ms0:/) becomes the drive alone (ms0:), which is refused when it is normalised again.", "quantifier": "every path with or without a drive", "why_tests_cant": "Paths are unbounded, and the tests are not compiled with this option.", "anchors": ["src/filelib/normalizepath_cstr.c: normalizepath_cstr"]}
{"id": "C132", "title": "lists give their memory back", "statement": "Whatever is done with a list (sblist) or a hash list and whichever allocations fail meanwhile, freeing it frees no block twice and leaves exactly the blocks that were allocated before it was made. A list owns at most two blocks. Freeing it again is an error.", "quantifier": "every sequence of operations and every allocation failure", "why_tests_cant": "Histories are unbounded, and each allocation in them may fail; a test does not see which blocks are freed.", "anchors": ["src/sblist/sblist.c: sblist_new, sblist_free, sblist_free_items, sblist_grow_if_needed", "src/hashlist/hashlist.c: hashlist_new, hashlist_add, hashlist_free"]}
{"id": "C133", "title": "stringptr_replace leaks memory", "statement": "Every successful stringptr_replace leaves one block besides its result allocated for ever. If the result cannot be allocated it returns NULL and leaves its list and the items allocated; if the list cannot be allocated it returns NULL and leaves nothing.", "quantifier": "every text, separator, replacement and every allocation failure", "why_tests_cant": "Leaks are invisible to a test of the result, and each allocation may fail.", "anchors": ["src/stringptrlist/stringptr_replace.c:stringptr_replace"]}
{"id": "C134", "title": "stringptr_replace with a list that did not grow", "statement": "If the list of pieces cannot grow, pieces are missing in the result of stringptr_replace, and the result ends with as many uninitialised bytes as the missing pieces and their separators had.", "quantifier": "every text, separator, replacement and every allocation failure", "why_tests_cant": "all inputs and allocation failures; the bytes are left to the allocator", "anchors": ["src/stringptrlist/stringptr_replace.c:stringptr_replace", "src/stringptrlist/stringptr_splits.c:stringptr_splits"]}
{"id": "C135", "title": "what filelist_search leaves allocated", "statement": "After a successful search filelist_free gives all memory back. If the list cannot be made all memory has been given back. If a path has no name the list stays allocated until filelist_free is called. If a name cannot be added the list is freed but not its items, if there are any, which is possible only if FLF_INCLUDE_DOT or FLF_INCLUDE_DOT_DOT without FLF_INCLUDE_HIDDEN was asked for; filelist_free must not be called then, it would free the list again.", "quantifier": "every list of paths, flags and every allocation failure", "why_tests_cant": "Leaks are invisible to a test of the result, and each allocation may fail.", "anchors": ["src/filelist/filelist.c: filelist_search, filelist_free"]}
{"id": "C136", "title": "listing a directory tree", "statement": "filelist_find_test and filelist_find_test2 print, for every directory tree, the path of the directory and the paths of all files and directories in it (hidden ones too, but neither . nor ..), each once on a line of its own, every directory before its contents and with a slash at the end. Only directories that cannot be listed (no permission, path too long) are missing, names included; compared with find, as many lines are missing as there are such directories.", "quantifier": "every directory tree", "why_tests_cant": "Directory trees are unbounded.", "anchors": ["examples/filelist_find_test.c:main, doDir", "examples/filelist_find_test2.c:main", "src/filelist/filelist.c: filelist_search"]}
{"id": "C137", "title": "listing ends in every file system", "statement": "filelist_find_test and filelist_find_test2 end without an invalid access whatever the file system looks like (directories may contain themselves through links), whichever searches fail, and for any arguments. With one argument they report success, without one 1.", "quantifier": "every file system and every argument list", "why_tests_cant": "File systems with cycles are infinite trees; a test cannot observe that a program ends in all of them.", "anchors": ["examples/filelist_find_test.c:main, doDir", "examples/filelist_find_test2.c:main"]}
{"id": "C138", "title": "listing the wrong directory", "statement": "filelist_find_test takes the empty argument for the root directory. If there is no memory for the path it lists the current directory after an empty line, and reports success.", "quantifier": "every argument and directory tree", "why_tests_cant": "An allocation must fail at a chosen point of the walk.", "anchors": ["examples/filelist_find_test.c: main, doDir", "src/filelist/filelist.c: filelist_search"]}
{"id": "C139", "title": "system calls of the logger", "statement": "log_put calls write once for each argument with a text that is not empty and once for the newline; log_puterror up to four times; log_puts, ulz_printf and ulz_fprintf at most once.", "quantifier": "every argument list", "why_tests_cant": "Argument lists are unbounded; tests look at the output, not at the calls.", "anchors": ["src/logger/log_put.c:log_put", "src/logger/log_puts.c:log_puts", "src/logger/log_puterror.c:log_puterror", "src/format/ulz_fprintf.c:ulz_fprintf", "src/format/ulz_printf.c:ulz_printf"]}
{"id": "C140", "title": "log output under partial writes", "statement": "The result of write is ignored. Of each text that log_put writes any beginning may arrive, independently of the others: a text in the middle of a line may be missing while the rest is there, and the caller does not learn of it. Of the output of ulz_printf and ulz_fprintf a beginning arrives. If all calls write all their bytes everything arrives.", "quantifier": "every argument list and every behaviour of write", "why_tests_cant": "A test cannot choose how much each write transfers.", "anchors": ["src/logger/log_put.c:log_put", "src/logger/log_puts.c:log_puts", "src/logger/log_putd.c:log_putd", "src/format/ulz_fprintf.c:ulz_fprintf"]}
{"id": "C141", "title": "log lines of two processes", "statement": "Two processes that log to the same file with log_put may tear each other's lines, whatever they log, even if every write is atomic: the text of one, the text of the other and two newlines is always possible. Two outputs of ulz_printf or ulz_fprintf can only follow each other, in one order or the other.", "quantifier": "every two argument lists and every schedule", "why_tests_cant": "A test cannot enumerate the schedules of two processes.", "anchors": ["src/logger/log_put.c:log_put", "src/format/ulz_fprintf.c:ulz_fprintf"]}
{"id": "C142", "title": "the result of process_close", "statement": "For a child that exits process_close returns its exit code modulo 256. For a child that is killed by a signal it returns 0, as for a successful one. If waiting is interrupted or fails it returns an arbitrary number below 256.", "quantifier": "every exit code, signal and content of uninitialised memory", "why_tests_cant": "The result depends on uninitialised memory; a test sees one content.", "anchors": ["src/proclib/process.c: process_close"]}
{"id": "C143", "title": "classes of printable characters", "statement": "STRSWITCH_PRINTABLE stands for the printable characters of ASCII without the accent, the circumflex and the bar. STRSWITCH_C_PRINTABLE stands for those of them that need no backslash in C constants (and not the question mark), STRSWITCH_SH_PRINTABLE for those of these that are not special between double quotes in a shell. No class contains a character twice.", "quantifier": "all 256 characters", "why_tests_cant": "Tests try a few characters.", "anchors": ["include/strswitch.h:STRSWITCH_LETTERS, STRSWITCH_NUMBERS, STRSWITCH_ALPHA, STRSWITCH_NON_ALPHA"]}
{"id": "C144", "title": "adding a list's own item", "statement": "Handing sblist functions a pointer to an item of the same list: sblist_add of item i appends a copy of it if the buffer has room, reads freed memory if the buffer is full and memory is available, and fails without effect otherwise. sblist_insert at pos is correct for an item before pos, inserts the predecessor for an item behind pos, and is undefined for the item at pos. sblist_set copies between different positions and is undefined for equal ones. Adding what sblist_pop returned is always undefined. sblist_insert_sorted of an item of a list without equal items is always undefined or out of memory.", "quantifier": "every list, index, position, allocator and comparison function that is a weak order", "why_tests_cant": "Whether the buffer moves depends on the allocator and on the capacity; a test may pass by luck.", "anchors": ["src/sblist/sblist.c: sblist_add, sblist_set, sblist_grow_if_needed", "src/sblist/sblist_insert.c:sblist_insert", "src/sblist/sblist_insert_sorted.c:sblist_insert_sorted", "src/sblist/sblist_pop.c:sblist_pop"]}
{"id": "C145", "title": "expressions over the list in tglist macros", "statement": "tglist_add(l, tglist_get(l, i)) appends item i whether or not the buffer grows. tglist_insert(l, tglist_get(l, i), pos) inserts item i if i <= pos and item i-1 otherwise. tglist_add(l, tglist_get(l, tglist_getsize(l)-1)) does not append the last item: it appends the bytes behind the list, which after growth can be anything.", "quantifier": "every list, index, position and allocator", "why_tests_cant": "all lists; the bytes are left to the allocator", "anchors": ["include/tglist.h: tglist_add, tglist_insert, tglist_set, tglist_get"]}
{"id": "C146", "title": "values in the text of an INI file", "statement": "Splitting the text of an INI file with stringptr_linesplit, then iniparser_get_section and iniparser_getvalue: for every text, section and key the result is the text behind 'key=' on the first such line between the first line starting with '[section]' and the next line starting with '[', or NULL; it is followed by a zero byte. The text of any file whose names have no ']', whose keys have no '=' and no leading '[', and without line feeds in them, gives back exactly its values.", "quantifier": "every text, section and key; every file of sections and entries", "why_tests_cant": "Texts are unbounded.", "anchors": ["examples/iniparser_test.c:main", "src/iniparser/iniparser.c: iniparser_get_section, iniparser_getvalue", "src/stringptrlist/stringptr_splitc.c:stringptr_splitc"]}
{"id": "C147", "title": "INI files that are read differently", "statement": "In an INI file with DOS line ends every value found ends in CR. A section named a]b before the section a answers for a. An entry k with the value v=w answers for the key k=v.", "quantifier": "every file with such line ends, names or values", "why_tests_cant": "Texts are unbounded; tests use well-formed files with Unix line ends.", "anchors": ["src/iniparser/iniparser.c: iniparser_get_section, iniparser_getvalue", "src/stringptrlist/stringptr_splitc.c:stringptr_splitc"]}
{"id": "C148", "title": "deleting while iterating over an hbmap", "statement": "hbmap_foreach(map, i) while(hbmap_iter_index_valid(map, i)) hbmap_delete(map, i) empties every map; with a further condition on key and value in the while it deletes exactly the entries that meet it and keeps the order of the others. Without the inner loop exactly the second, fourth, ... entry of each bucket survives.", "quantifier": "every map reached by any history, every condition", "why_tests_cant": "all histories, all numbers of buckets, all hash functions", "anchors": ["include/hbmap.h: hbmap_foreach, hbmap_delete, hbmap_iter_index_valid"]}
{"id": "C149", "title": "memory of lists of owned blocks", "statement": "A program that allocates the items of a tglist, frees those the list does not take and those it deletes, and ends with tglist_free_values and tglist_free has freed everything it allocated exactly once, whatever the order of the operations and whichever allocations fail. Without tglist_free_values exactly the items in the list stay allocated. The same holds for a tgilist if the program does not free what it deletes; an item that is deleted and freed is freed again by tgilist_free_values.", "quantifier": "every history and every pattern of failing allocations", "why_tests_cant": "Histories are unbounded, each allocation may fail, and leaks are invisible to a test of the results.", "anchors": ["include/tglist.h:tglist_add, tglist_get, tglist_set, tglist_insert, tglist_delete, tglist_free_items", "include/tgilist.h:tgilist_add, tgilist_get, tgilist_set, tgilist_insert, tgilist_delete, tgilist_free_items"]}
{"id": "C150", "title": "memory of maps of owned blocks", "statement": "The same for maps whose keys and values are blocks the program owns: with bmap_insert_nocheck the number of entries is what the results say, and bmap_fini leaves exactly the keys (values) if bit 0 (1) of the flags is not set. The same holds for hbmap with any number of buckets.", "quantifier": "every history, comparison and hash function and every pattern of failing allocations", "why_tests_cant": "Histories are unbounded, each allocation may fail, and leaks are invisible to a test of the results.", "anchors": ["include/bmap.h:bmap_insert, bmap_find, bmap_get, bmap_delete, bmap_fini", "include/hbmap.h:hbmap_insert, hbmap_find, hbmap_get, hbmap_delete, hbmap_fini"]}
{"id": "C151", "title": "blocks lost by bmap_insert", "statement": "A program that relies on the result of bmap_insert to learn whether the map has taken over key and value loses two blocks for each insertion for which the keys grew and the values could not: bmap_insert returns an index, but the map has no such entry. Nothing else is lost.", "quantifier": "every history and every pattern of failing allocations", "why_tests_cant": "Histories are unbounded, each allocation may fail, and leaks are invisible to a test of the results.", "anchors": ["include/bmap.h: bmap_insert, bmap_insert_nocheck, bmap_fini"]}
{"id": "C152", "title": "number of buckets", "statement": "hbmap_new makes a map if 16 + 80 * numbuckets can be represented in size_t (on LP64) and there is memory, returns NULL without memory, and otherwise writes behind the block it allocated.", "quantifier": "every requested number of buckets up to 2^64 - 1", "why_tests_cant": "The boundaries are near 2^64.", "anchors": ["include/hbmap.h: hbmap_new, hbmap_init_impl, hbmap_struct_size_impl"]}
{"id": "C153", "title": "tgilist with a signed index type", "statement": "A tgilist whose index type is a signed type of w bytes acts as a mathematical list for any history of at most 2^(8w-1) calls. From there on values are still added with success and counted, but they cannot be read or set: the access is before the block of values. For short, which the header suggests for up to 64K values, this is the value number 32769.", "quantifier": "every history, item size, index type and pattern of failing allocations", "why_tests_cant": "The boundaries depend on the index type; tests use one.", "anchors": ["include/tgilist.h: tgilist_get, tgilist_set, tgilist_add, tgilist_insert"]}
{"id": "C154", "title": "the list types are interchangeable", "statement": "A program that appends, inserts, deletes, reads and asks for the size, with positions that exist, gets the same answers from sblist, tlist, tglist and tgilist: those of a mathematical list.", "quantifier": "every sequence of calls, item size, block size, index type, content of new memory and addresses malloc may return", "why_tests_cant": "all sequences of calls; a test compares two of the types on random ones", "anchors": ["tests/tlist_test.c:main", "src/sblist/sblist.c:sblist_new, sblist_get, sblist_set, sblist_add, sblist_free", "src/sblist/sblist_insert.c:sblist_insert", "src/sblist/sblist_delete.c:sblist_delete", "src/tlist/tlist.c:tlist_insert, tlist_get, tlist_delete, tlist_getsize", "include/tglist.h:tglist_add, tglist_get, tglist_set, tglist_insert, tglist_delete, tglist_free_items", "include/tgilist.h:tgilist_add, tgilist_get, tgilist_set, tgilist_insert, tgilist_delete, tgilist_free_items"]}
{"id": "C155", "title": "the worst case of tlist", "statement": "The logarithmic performance the header of tlist promises is not guaranteed: for every n below 2^32 there are n positions, the same for every program and every run, such that after inserting n items at these positions the lookup of the first item makes n nested calls.", "quantifier": "every number of items, item size and content, and all addresses malloc may return", "why_tests_cant": "all sizes; a stack overflow shows up only for the right positions", "anchors": ["src/tlist/tlist.c: mrand, merge, split, getitem, tlist_insert, tlist_get"]}
{"id": "C156", "title": "blind insertions make a multimap", "statement": "A bmap filled with bmap_insert_nocheck even when the key exists already is a bag of entries: every blind insertion adds an entry, bmap_insert overwrites one entry of its key if there is one, bmap_get gives the value of some entry with the key if there is one, a deletion removes one entry, so that a key is gone after exactly as many deletions as it has entries. Keys stay sorted and aligned with their values, whichever allocations fail.", "quantifier": "every history, key and value size, order, and pattern of failing allocations", "why_tests_cant": "Histories are unbounded, and each allocation in them may fail.", "anchors": ["include/bmap.h: bmap_insert_nocheck, bmap_insert, bmap_get, bmap_find, bmap_delete"]}
{"id": "C157", "title": "maps with a broken comparison function", "statement": "If the comparison function of a bmap is not an order (as one that subtracts integers and overflows), no call on the map touches foreign memory or fails to end, provided bsearch returns an element of the array or NULL. Keys and values stay aligned, and a call adds only its own entry, changes the value of one entry or removes one entry: no other entry is lost or damaged.", "quantifier": "every function from pairs of keys to integers, every history and pattern of failing allocations", "why_tests_cant": "The claim is about every function, also those no test author would write.", "anchors": ["include/bmap.h:bmap_insert, bmap_find, bmap_get, bmap_delete, bmap_fini", "include/tglist.h: tglist_insert_sorted"]}
{"id": "C158", "title": "temporary directories of concurrent processes", "statement": "However many processes call mktempdir at the same time, in whatever order their calls of mkdir take place, with whatever random numbers and failures, and while others make directories: at every moment no two processes have got the same directory, every directory a process has got exists and did not exist before, and no process that failed or is still trying has left a directory behind.", "quantifier": "every number of processes, prefixes, random numbers and every schedule", "why_tests_cant": "A test cannot enumerate the schedules.", "anchors": ["src/filelib/mktempdir.c: mktempdir", "src/filelib/ulz_mkdtemp.c: ulz_mkdtemp"]}
{"id": "C159", "title": "names of temporary directories are predictable", "statement": "mktempdir takes its names from rand without seeding it. Programs that have not called srand try the same names in the same order: the k-th of them that runs while the others keep their directories finds k names taken before it gets one. Whoever makes the directories with the names that come next keeps the call from returning.", "quantifier": "every sequence of random numbers, prefix and number of processes", "why_tests_cant": "The claim is about every sequence of random numbers; a test sees one.", "anchors": ["src/filelib/mktempdir.c: mktempdir", "src/filelib/ulz_mkdtemp.c: ulz_mkdtemp"]}
{"id": "C160", "title": "following a growing file", "statement": "If another program appends only whole lines that fit the buffer to a file, in any portions, while it is read with fileparser_readline, the reader gets exactly these lines, in order and each once, and -2 whenever it has read all that has been written, however appends and calls are interleaved.", "quantifier": "every sequence of appends and calls, every buffer size", "why_tests_cant": "A test cannot enumerate the interleavings of appends and reads.", "anchors": ["src/fileparser/fileparser_readline_userbuf.c: fileparser_readline_userbuf"]}
{"id": "C161", "title": "unfinished lines of a growing file", "statement": "If a line is read before its line feed has been written, fileparser_readline delivers the unfinished line as if it were complete and later the rest of it as another line; and for every such call one byte is skipped behind the next line feed: a line written and read in k + 1 portions costs the first k bytes of what follows it.", "quantifier": "every sequence of appends and calls, every buffer size", "why_tests_cant": "A test cannot enumerate the interleavings of appends and reads.", "anchors": ["src/fileparser/fileparser_readline_userbuf.c: fileparser_readline_userbuf"]}
{"id": "C162", "title": "crash points of saving to a file", "statement": "If the process dies while stringptr_tofile or stringptrlist_tofile saves to a file, or somebody reads the file in between, the file has its old content, as long as it has not been opened, or exactly a leading part of the new content, never anything else. But the old content is gone before the new one is there: unless one of them is empty there is a moment at which the file holds neither.", "quantifier": "every old and new content, every sequence of partial transfers, every crash point", "why_tests_cant": "A test cannot stop the program at each of its system calls, with each amount transferred.", "anchors": ["src/stringptr/stringptr_tofile.c: stringptr_tofile", "src/stringptrlist/stringptrlist_tofile.c: stringptrlist_tofile"]}
{"id": "C163", "title": "saving to one file from several processes", "statement": "When several processes save texts to the same file at the same time with stringptr_tofile, every byte of the file is one that one of the texts has at that place, or a zero byte, and the file is never longer than the longest text. Processes that save the same text leave exactly that text. With different texts the file can end up as a mixture: the first portions of 64 KiB of one text and the rest of the other, or a shorter text, a hole of zero bytes and the rest of the longer.", "quantifier": "every number of processes, all texts, every interleaving of their calls and every size of the transfers", "why_tests_cant": "A test cannot enumerate the interleavings of the processes.", "anchors": ["src/stringptr/stringptr_tofile.c: stringptr_tofile"]}
{"id": "C164", "title": "counters and debugging of the single size allocator", "statement": "After every history of allocations and frees the pool's avail is the number of elements that are free, top is one more than the number of the highest element in use, and the bits of used mark exactly the elements in use. Compiled with DEBUG, SSFREE aborts the program exactly when its argument is not the address of an element in use (a double free, for instance), and does the same as without DEBUG otherwise. The program tests/ssalloc_test.c passes all its assertions whatever numbers rand delivers.", "quantifier": "every history, every pointer, every sequence of random numbers", "why_tests_cant": "all histories; the test tries one sequence per second", "anchors": ["include/ssalloc.c: ssa_alloc, ssa_free", "tests/ssalloc_test.c: main"]}
{"id": "C165", "title": "several processes at the same time", "statement": "A process started with process_open also inherits the caller's ends of the pipes of all processes that are open at that moment. So if the programs run until the end of their input, process_close for one of them returns exactly if every process that was opened later has been closed before; otherwise it waits for ever. Closing in the opposite order of opening always works, does not disturb the other processes, and when all are closed the caller's descriptors are as at the start.", "quantifier": "every number of processes, every history of process_open (with every failure) and process_close", "why_tests_cant": "Histories of several processes, with every failure, are unbounded.", "anchors": ["src/proclib/process.c: process_open, process_close"]}
{"id": "C166", "title": "Initialising the CRC tables can be repeated and raced", "statement": "Initialising the CRC tables any number of times, also while other threads do so in any interleaving, is harmless: as soon as one call has returned, every CRC computed by any thread is right, even while other calls are still running. A CRC computed before any call has returned is wrong in general: a byte is processed wrongly exactly if its table entry has not been stored yet by any thread (and is not entry 0), and a null pointer is followed if nothing has been stored.", "quantifier": "every number of threads, every interleaving of their stores, every moment, state and input byte", "why_tests_cant": "the outcome depends on the interleaving; a test runs one", "anchors": ["src/crc32/crc32_impl.c:InitTables", "src/crc32/crc32_impl.c:Update", "include/crc32_impl.h:InitTables"]}
{"id": "C167", "title": "converting within one buffer", "statement": "The converting functions may be used with source and destination in the same buffer within these limits, and then do exactly what they do with separate buffers: base64dec if the destination begins at most one byte behind the begin of the text (so decoding in place works), hex2raw if it does not begin behind it, rc4 likewise, base64enc if the source begins at least (count-1)/3 bytes behind the destination and raw2hex if it begins at least len bytes behind it. In particular a base64 or hex text can be decoded where it is, and bytes at the end of a buffer of exactly the size of their text can be converted to the begin of the buffer.", "quantifier": "all contents of the buffer, all offsets and lengths within the limits, all keys", "why_tests_cant": "the tests use separate buffers; the claim is about every offset and every length", "anchors": ["src/strlib/base64dec.c:base64dec", "src/strlib/base64enc.c:base64enc", "src/strlib/hex2raw.c:hex2raw", "src/strlib/raw2hex.c:raw2hex", "src/strlib/rc4.c:rc4"]}
{"id": "C168", "title": "limits of converting within one buffer", "statement": "One byte beyond the limits for converting within one buffer the results are wrong. rc4 with a destination that begins d bytes behind the source (and before its end) encrypts some bytes twice: the result is right exactly if every byte of the source happens to be the encryption of the byte d places before it.", "quantifier": "all buffers, keys, lengths and distances (rc4); one witness per function for the other limits", "why_tests_cant": "the exact set of inputs for which it works is infinite", "anchors": ["src/strlib/rc4.c:rc4", "src/strlib/base64dec.c:base64dec", "src/strlib/raw2hex.c:raw2hex"]}
{"id": "C169", "title": "keys that rc4 cannot tell apart", "statement": "rc4 uses the key only through the first 256 bytes of its endless repetition. Two keys that agree there encrypt every text alike: what follows byte 256 of a key is ignored, and a key repeated is the same key.", "quantifier": "all pairs of keys, all texts, lengths and destinations", "why_tests_cant": "a test tries some keys; the claim is about all pairs", "anchors": ["src/strlib/rc4.c:rc4"]}
{"id": "C170", "title": "CipherSaber messages are decrypted", "statement": "The CipherSaber functions built on rc4 give back the text of every message: for every text, every ten random bytes, every key of fewer than 256 characters and every number of rounds. They abort exactly for messages of fewer than ten bytes and keys of 256 characters or more. One round is plain rc4. But keys of more than 246 characters are accepted although then not all random bytes have influence: with l characters only the first 256-l of them, so that messages with different random bytes share a keystream; and with zero rounds the key has no influence.", "quantifier": "all texts, random bytes, keys, numbers of rounds", "why_tests_cant": "The test decrypts two published messages; the claim is about every text, key and number of rounds.", "anchors": ["tests/rc4_test.c:rc4_n", "tests/rc4_test.c:ciphersaber_1_dec", "tests/rc4_test.c:ciphersaber_2_dec", "src/strlib/rc4.c:rc4"]}
{"id": "C171", "title": "argument of the rc4 test program", "statement": "The rc4 test program called with an argument prints the encrypted argument and passes its assertions exactly if the argument has fewer than 2048 characters; with a longer one it writes outside its array.", "quantifier": "all arguments, all initial contents of the arrays", "why_tests_cant": "infinitely many arguments; overflowing a buffer by one byte is usually not noticed", "anchors": ["tests/rc4_test.c:main"]}
{"id": "C172", "title": "The one-call SHA-512 and the self-test", "statement": "The one-call hash function writes the SHA-512 digest of every message and exactly 64 bytes. It agrees with the incremental interface fed at once and fed in blocks of 128, so that the self-test program prints nothing and exits with status 0 whatever random bytes it draws.", "quantifier": "all messages below 2^64 bytes, all sequences of random bytes, all initial contents of the arrays", "why_tests_cant": "The self-test draws one random message per run; it samples what the theorem covers.", "anchors": ["src/sha512/sha512.c:crypto_hash", "tests/sha512_test.c:test", "tests/sha512_test.c:sha512_to_str", "tests/sha512_test.c:main"]}
{"id": "C173", "title": "Hashing a file with partial reads", "statement": "Hashing a file prints the SHA-512 digest of its content if every read but the last delivers a multiple of 128 bytes. With other short reads, as from pipes, different files get the same digest. A failing read is reported and nothing is printed. An empty or unreadable file makes the program dereference a null pointer.", "quantifier": "all files, all sequences of answers of read, all contents of the buffers", "why_tests_cant": "Regular files on a quiet system are read in full blocks: tests do not see short or failing reads.", "anchors": ["tests/sha512_test.c:sha512_hash", "tests/sha512_test.c:test_file", "src/sha512/sha512.c:sha512_update", "src/stringptr/stringptr_fromfile.c:stringptr_fromfile"]}
{"id": "C174", "title": "lists over existing memory", "statement": "A list made from existing memory and given a block size behaves like a list that starts with the items in that memory, under every sequence of calls and allocation failures. Without a block size this holds for all calls that do not add items.", "quantifier": "all memory contents and sizes, item and block sizes, sequences of calls, patterns of allocation failures", "why_tests_cant": "The interplay of left-over bytes, growth and failed allocations has unboundedly many histories.", "anchors": ["src/sblist/sblist_new_from_data.c:sblist_new_from_data", "include/sblist.h:sblist_set_blockitems", "src/sblist/sblist.c:sblist_grow_if_needed"]}
{"id": "C175", "title": "memory of lists over existing memory", "statement": "If the memory is shorter than one item and no block size was set, a failed attempt to add an item leaves the list with a dangling pointer on systems where realloc to 0 bytes frees; the next attempt or freeing the list is undefined. Freeing a list over memory that is not the allocator's is undefined; otherwise it gives back exactly the memory and the list object.", "quantifier": "all heaps, sizes and addresses", "why_tests_cant": "Depends on the realloc of the platform and on sizes tests do not use.", "anchors": ["src/sblist/sblist_new_from_data.c:sblist_new_from_data", "src/sblist/sblist.c:sblist_grow_if_needed", "src/sblist/sblist.c:sblist_free"]}
{"id": "C176", "title": "going through all sections of a name", "statement": "The test program that goes through the sections of one name until it gets a section with no lines prints the value of every such section if each of them has an entry; after a section without entries nothing more is printed. It terminates and stays within the text of the file. If the file is missing or empty it dereferences NULL.", "quantifier": "all texts of the file, all files of sections and entries, all memory behind the text", "why_tests_cant": "Texts and numbers of sections are unbounded; the shipped file has no empty section.", "anchors": ["tests/iniparser_test_nextsection.c:main", "src/iniparser/iniparser.c:iniparser_get_next_section", "src/iniparser/iniparser.c:iniparser_getvalue", "src/stringptrlist/stringptr_splitc.c:stringptr_splitc"]}
{"id": "C177", "title": "treap list at the limit of its counters", "statement": "A list of 2^32 - 1 items accepts another item at every index, reports success and stores it in its place, but answers afterwards that its size is 0: deletions are refused, and freeing the items leaves all of them allocated. Lists of every smaller size exist and answer their size.", "quantifier": "all lists of 2^32 - 1 items, all indices, items and addresses", "why_tests_cant": "No test can build lists of 4 billion items.", "anchors": ["src/tlist/tlist.c:tlist_insert", "src/tlist/tlist.c:upd_cnt", "src/tlist/tlist.c:tlist_getsize", "src/tlist/tlist.c:tlist_free_items", "src/tlist/tlist.c:tlist_delete_impl"]}
{"id": "C178", "title": "looping over a list", "statement": "A loop with sblist_iter and its variants goes through all items in order, with the pointer at each; after the loop the pointer is NULL if the loop was not left with break, and else the item at which it was left. A loop that deletes some items and decreases the loop variable after each deletion handles each item once and deletes exactly those, with the signed variable of sblist_iter_counter2s, with an unsigned one, and with tglist_foreach. If the loop variable is not decreased, items that should go stay in the list exactly if two neighbours should both go.", "quantifier": "all lists, tests of items and loop bodies that search or delete", "why_tests_cant": "Lists and tests are unbounded in number.", "anchors": ["include/sblist.h:sblist_iter_counter, sblist_iter_counter2, sblist_iter_counter2s, sblist_iter", "include/tglist.h:tglist_foreach", "src/sblist/sblist_delete.c:sblist_delete"]}
{"id": "C179", "title": "a list as its own work list", "statement": "A loop with sblist_iter whose body appends items to the same list goes through the appended items too: if items make finitely many generations of others, the loop ends, and the list then holds all generations one after the other.", "quantifier": "all lists and all ways to make items from an item, with finitely many generations", "why_tests_cant": "All ways to make items, numbers of generations are unbounded.", "anchors": ["include/sblist.h:sblist_iter_counter", "src/sblist/sblist.c:sblist_add"]}
{"id": "C180", "title": "a hash function that disagrees with the comparison", "statement": "For any hash function, an hbmap under any sequence of insertions, lookups and deletions is memory safe and behaves as a map in which two keys are the same key exactly if they compare equal and their hash values agree modulo the number of buckets. With one bucket it is the map given by the comparison alone, whatever the hash. Of two keys that compare equal but fall into different buckets both are stored, neither is found under the other, and iteration visits both.", "quantifier": "all hash functions, comparisons, numbers of buckets, operation sequences and allocation failures", "why_tests_cant": "Hash functions and operation sequences are infinite in number.", "anchors": ["include/hbmap.h:hbmap_insert, hbmap_find, hbmap_get, hbmap_delete, hbmap_foreach", "include/bmap.h:bmap_insert, bmap_find, bmap_delete"]}
{"id": "C181", "title": "normalizing a path in place", "statement": "normalizepath_cstr(path, path), or with an output that begins before the path in the same buffer, gives the same answer and the same normal form as with a separate buffer, and writes nothing outside the bytes from the output to the end of the path. If it fails, the path may have been changed. With an output that begins inside the path, a path made of one plain name makes it write past the end of any buffer.", "quantifier": "all paths, contents of the buffer, and positions of the output", "why_tests_cant": "Paths and positions are unbounded in number.", "anchors": ["src/filelib/normalizepath_cstr.c:normalizepath_cstr"]}
{"id": "C182", "title": "the example programs for reading lines and saving a text", "statement": "The program that prints a file with fileparser_readline prints, for every regular file, its lines, each up to its first NUL and followed by a line feed, up to the first line of 1024 or more bytes, where it stops; so it copies a file of short lines without NUL and adds a line feed that is missing at the end. Whatever the system answers it ends without undefined behaviour. It prints nothing if the file cannot be opened, if its descriptor is 0, or if it is a pipe whose first delivery holds a line feed. The program that saves a text leaves exactly this text in the file, whatever was there before, if no write fails.", "quantifier": "all file contents, descriptors, contents of uninitialised memory, and answers of the system", "why_tests_cant": "Files and histories of partial reads are unbounded in number.", "anchors": ["examples/fileparser_test.c:main", "examples/stringptr_test1.c:main", "src/fileparser/fileparser_readline.c:fileparser_readline", "src/stringptr/stringptr_tofile.c:stringptr_tofile"]}
{"id": "C183", "title": "maps with strings as keys", "statement": "A bmap with keys of type char* and a comparison function that compares the strings behaves as a map from strings to values, whatever happens to the memory between the calls, as long as the strings of the keys that are in the map stay as they are; the buffer used to look up, delete or overwrite may be reused. If the string of a key in the map changes, its entry is lost under the old string. Inserting any strings through one buffer without copying them leaves a map with one entry.", "quantifier": "all histories of calls and of memory contents, allocation failures, and implementations of bsearch", "why_tests_cant": "Histories of the memory between calls are unbounded.", "anchors": ["include/bmap.h:bmap_insert", "include/bmap.h:bmap_get", "tests/bmap_bench.c:strstrcmp"]}
{"id": "C184", "title": "benchmark programs", "statement": "The functions timed by the bmap and hbmap benchmarks store the numerals of 0 to N-1 and find every one of them again, whatever rand() returns: no assertion fails and the result is the sum of the numbers looked up, if it fits in an int. With the constants of bmap_bench.c it always does; with those of hbmap_bench.c it does not as soon as rand()%1000000 is 214749 or more on average. When they return, all memory is freed except one copy of the string 0.", "quantifier": "all numbers of items, lookups and buckets, all values of rand(), addresses and memory contents, and implementations of bsearch", "why_tests_cant": "A run shows one sequence of rand() values and an overflow may go unnoticed.", "anchors": ["tests/bmap_bench.c:test_bmap", "tests/hbmap_bench.c:test_bmap", "include/hbmap.h:hbmap_insert_nocheck", "include/hbmap.h:hbmap_fini"]}
{"id": "C185", "title": "process_open needs standard descriptors", "statement": "On a POSIX system that refuses nothing, process_open succeeds exactly if descriptors 0, 1 and 2 are all open in the caller: if one of them is closed, the first pipe takes its place and the child closes it before use. After daemonize, processes can be started exactly if /dev/null could be opened.", "quantifier": "all descriptor tables and all answers of the system", "why_tests_cant": "Tests run with the standard descriptors open.", "anchors": ["src/proclib/process.c:process_open", "src/proclib/daemonize.c:daemonize"]}
{"id": "C186", "title": "Reading numbers from arbitrary text", "statement": "strtoint64 and strtoint are total on texts of up to 17 characters behind an optional minus sign, whatever the characters: each counts as a digit worth its distance from '0'. Texts of 19 and more characters are always undefined behaviour, with 18 an exact condition decides; strtoint reduces the value modulo 2^32, and negating -2^31 is undefined. Every text accepted by isnumericipv4 is converted by ipv4fromstring without undefined behaviour to the values of its four parts modulo 256.", "quantifier": "all texts of any length with any bytes", "why_tests_cant": "Only a few well-formed numbers can be tried.", "anchors": ["src/strlib/strtoint64.c:strtoint64", "src/strlib/strtoint.c:strtoint", "src/strlib/isnumericipv4.c:isnumericipv4", "src/strlib/ipv4fromstring.c:ipv4fromstring"]}
{"id": "C187", "title": "Output stays within the size given", "statement": "base64dec, base64enc_str and fileparser_readline_userbuf leave every byte behind the given size as it was, and what they store and return does not depend on it, also when they fail. normalizepath_cstr (both versions) uses at most strlen(path)+1 bytes of the output, also when it refuses the path, but then leaves parts of it there. base64dec counts characters in an int: that overflows for a text of 2^31 symbols with a destination of 3*(2^29-1) bytes or more, and with any smaller destination such texts are refused.", "quantifier": "all texts, files, buffers and bytes behind the buffers", "why_tests_cant": "Tests use buffers of exactly the given size, and no texts of 2 GB.", "anchors": ["src/strlib/base64dec.c:base64dec", "src/strlib/base64enc_str.c:base64enc_str", "src/fileparser/fileparser_readline_userbuf.c:fileparser_readline_userbuf", "src/filelib/normalizepath_cstr.c:normalizepath_cstr"]}
{"id": "C188", "title": "hbmap with strings as keys", "statement": "An hbmap whose keys are pointers to strings, with a comparison and a hash function that follow them, behaves as a map from strings for any number of buckets and any hash function, as long as the strings of the keys that are in the map do not change; other memory, including the buffer a lookup passes, may. A key string that changes makes its entry unreachable under the old string, and under the new one exactly if the two belong to different buckets. Inserting strings through one buffer leaves one entry per bucket met, holding the value last inserted for that bucket.", "quantifier": "all hash functions, numbers of buckets, histories of calls, contents of memory and allocation failures", "why_tests_cant": "A test uses strings that do not change and one hash function.", "anchors": ["include/hbmap.h:hbmap_insert", "include/hbmap.h:hbmap_find", "include/hbmap.h:hbmap_get", "include/hbmap.h:hbmap_delete", "tests/hbmap_bench.c:strstrcmp"]}
{"id": "C189", "title": "integer keys compared by subtraction", "statement": "The comparison of the tests and examples, `return *a - *b`, is defined exactly if the difference is an int. A bmap with int keys and this comparison behaves as a map from integers, with no undefined comparison, under every history in which no two keys differ by more than 2^31-1; sorted insertion into a tglist of ints keeps it sorted. Inserting an int that far from the middle element of the list is undefined; with wrapping arithmetic it lands on the wrong side, exactly in that case for a second element, and three ints may have no sorted arrangement at all. The integer test of the bmap benchmark finds every item for any number of items up to 2^31.", "quantifier": "all ints, histories of calls, lists and allocation failures", "why_tests_cant": "Tests use small non-negative ints.", "anchors": ["tests/bmap_bench.c:intcmp", "tests/bmap_bench.c:test_bmap_int", "tests/tglist_insert_test.c:intcmp", "include/bmap.h:bmap_find", "include/tglist.h:tglist_insert_sorted_impl"]}
{"id": "C190", "title": "reading standard input line by line", "statement": "A loop that calls read_stdin_line until it returns NULL ends for every input and gets, for any buffer of 2 to 2^31-1 bytes, exactly the pieces of at most bufsize-1 characters that end with a newline where there is one, each up to its first zero byte and, with chomp, without the last byte of that. Without chomp nothing of an input without zero bytes is lost; with chomp one gets the lines of the input exactly if it ends with a newline and every line fits with newline and terminator. With a buffer of one byte the loop never ends; with a size that is not a positive int every input looks empty.", "quantifier": "all inputs, buffers and buffer sizes", "why_tests_cant": "A test reads a few short lines.", "anchors": ["src/stringptr/read_stdin_line.c:read_stdin_line", "src/stringptr/stringptr_shiftleft.c:stringptr_shiftleft", "src/stringptr/stringptr_fromchar.c:stringptr_fromchar"]}
{"id": "C191", "title": "cost of searching, sorted insertion and growth", "statement": "sblist_bsearch(_r), sblist_insert_sorted(_r) and tglist_insert_sorted end for every comparison function, even one that has a state and contradicts itself; they compare only with items of the list, at most floor(log2 n) + 1 times for n items, and this bound is reached. Over any history of calls a list's buffer is the smallest its growth policy offers for the largest number of items it ever had: an sblist goes through buffers of 1, 2, ..., m blocks (in total m(m+1)/2 blocks), a tglist through 4, 8, 16, ... items, in total less than four times that largest number; deleting gives no memory back.", "quantifier": "all lists, items, comparison functions with state, and call histories", "why_tests_cant": "A test uses a comparison that is an order, does not count its calls and looks at no buffer sizes.", "anchors": ["src/sblist/sblist_bsearch.c:sblist_bsearch", "src/sblist/sblist_bsearch_r.c:sblist_bsearch_r", "src/sblist/sblist_insert_sorted_r.c:sblist_insert_sorted_r", "src/sblist/sblist_insert_sorted.c:sblist_insert_sorted", "src/sblist/sblist.c:sblist_grow_if_needed", "include/tglist.h:tglist_insert_sorted", "include/tglist.h:tglist_grow_if_needed"]}
{"id": "C192", "title": "macro arguments with side effects", "statement": "bmap_insert(m, KEY, VAL) evaluates KEY once if the first key is in the map; otherwise twice, and inserts the second without looking for it: the first key is then in the map only if both are equal, and a second key that was there gets a second entry. The loop inserting keys[i++] with vals[j++] over n different keys inserts every second key only, with the wrong values, and reads behind the array if n is odd. bmap_delete(m, i++) keeps entry i, drops key i+1 and shifts a value to the wrong key, or reads behind the arrays. hbmap_insert evaluates KEY four times and may leave a key in a bucket where no search finds it. MIN and MAX return a second evaluation. tglist_add evaluates the item exactly once, or not at all if memory is refused. bmap_fini(m, a | b) frees keys and values as soon as a is not zero, and bmap_fini(m, x ? a : b) frees both or none if x is true, unless the argument is in parentheses.", "quantifier": "all maps, lists, keys, values, flags and argument expressions with any state", "why_tests_cant": "A test passes variables and literals as arguments.", "anchors": ["include/bmap.h:bmap_insert", "include/bmap.h:bmap_delete", "include/bmap.h:bmap_fini", "include/hbmap.h:hbmap_insert", "include/tglist.h:tglist_add", "include/macros.h:MIN", "include/macros.h:MAX"]}
{"id": "C193", "title": "the room normalizing takes", "statement": "normalizepath works for paths of any length as long as the intermediate result (components are written first and taken back at '..') and the final result with its terminator fit into PATH_MAX bytes; otherwise it writes behind its local buffer, also for a path such as /name/.. whose normal form is '/'. normalizepath_cstr is right with an output buffer of exactly that many bytes and writes behind any smaller one. The room is at most strlen(path)+1 bytes and at least that of the result. getpathdiff, which normalizes both of its paths, is right exactly if both fit and the work buffer has room for the difference and a terminator.", "quantifier": "all paths, buffers and buffer sizes", "why_tests_cant": "Tests use short paths and large buffers.", "anchors": ["src/filelib/normalizepath.c:normalizepath", "src/filelib/normalizepath_cstr.c:normalizepath_cstr", "src/filelib/getpathdiff.c:getpathdiff"]}
{"id": "C194", "title": "the treap list is balanced on average", "statement": "After every history of calls on a tlist, the number of nested calls of a lookup or insertion is determined by the priorities of the items present: the items on the way to the place. The priorities, from a generator with a fixed seed, repeat with period exactly 2^31, so up to that many insertions get different ones. Averaged over all n! index sequences that insert n items one after the other, a lookup of item i makes exactly H(i+1)+H(n-i)-1 nested calls, an insertion at g makes H(g)+H(n-g)+1, and H(i)+H(n-1-i)+2 are enough for a deletion (H harmonic numbers); all are at most 2 log2 n + 4.", "quantifier": "all histories of calls, all n up to 2^31, all indices, all placements by malloc", "why_tests_cant": "The average ranges over n! call sequences for every n; tests run one sequence and do not measure depth.", "anchors": ["src/tlist/tlist.c:mrand", "src/tlist/tlist.c:merge", "src/tlist/tlist.c:split", "src/tlist/tlist.c:getitem", "src/tlist/tlist.c:insert", "src/tlist/tlist.c:remove", "src/tlist/tlist.c:tlist_get", "src/tlist/tlist.c:tlist_insert", "src/tlist/tlist.c:tlist_delete"]}
{"id": "C195", "title": "how long pointers to items stay good", "statement": "A pointer to item i of an sblist or tglist, kept over any history of calls, may be used exactly until the list first gets more items than its buffer had room for when the pointer was taken (for a new sblist with blocks of b items: the most items so far, rounded up to a multiple of b). Until then it reads and writes the item that is at index i at that time, not the item it was taken for, and if there is none it shows the last item that was there; the pointer from sblist_pop shows the popped item until a call adds an item again. A pointer from tlist_get belongs to the item: however the list changes, it shows the same bytes and tlist_get returns it for the item's new index, until the item is deleted.", "quantifier": "all histories of calls with all allocation failures, all indices, all item and block sizes", "why_tests_cant": "Whether memory is reallocated depends on the whole history and on the allocator; a test that uses a stale pointer usually reads plausible data.", "anchors": ["src/sblist/sblist.c:sblist_get", "src/sblist/sblist.c:sblist_grow_if_needed", "src/sblist/sblist_insert.c:sblist_insert", "src/sblist/sblist_delete.c:sblist_delete", "src/sblist/sblist_pop.c:sblist_pop", "include/tglist.h:tglist_get", "include/tglist.h:tglist_grow_if_needed", "src/tlist/tlist.c:tlist_get", "src/tlist/tlist.c:tlist_insert", "src/tlist/tlist.c:tlist_delete"]}
{"id": "C196", "title": "how long pointers to values of maps stay good", "statement": "A pointer from bmap_get, kept over any history of calls, may be used exactly until the map first has more entries than its values had room for when the pointer was taken. Until then it shows not the value of its key but that of whatever key has as many smaller keys as its key had; so it is the key's value, and what bmap_get returns, while no smaller key is inserted or deleted and the key is not deleted. The same holds for hbmap_get, where only keys of the same bucket matter. With BMAP_USE_TGILIST, and for pointers to items of a tgilist, the pointer belongs to the entry: it shows its value and every update of it wherever it moves, and after its deletion for ever the last one, until all entries ever added no longer fit into the array; a write through it is an update.", "quantifier": "all histories of calls with all allocation failures, all keys, all comparison and hash functions, all sizes", "why_tests_cant": "Which value a stale pointer shows depends on the whole history of the map; in a test that inserts keys in increasing order it happens to be the right one.", "anchors": ["include/bmap.h:bmap_get", "include/bmap.h:bmap_insert", "include/bmap.h:bmap_delete", "include/hbmap.h:hbmap_get", "include/hbmap.h:hbmap_insert", "include/hbmap.h:hbmap_delete", "include/tgilist.h:tgilist_get", "include/tgilist.h:tgilist_insert", "include/tgilist.h:tgilist_delete", "include/tglist.h:tglist_grow_if_needed"]}
{"id": "C197", "title": "looking up keys in one map from several threads", "statement": "bmap_find, bmap_contains and bmap_get write into the map. Threads that look up keys in a bmap nobody changes get the right answers under every schedule exactly if the map is empty, or no two calls of different threads include a bmap_get or have different answers; otherwise some schedule gives one thread the answer for the key of the other, or reads foreign memory. For hbmap_find and hbmap_get: exactly if all these calls find one and the same entry, the first of its bucket; for hbmap_contains: exactly if the keys are all present and in one bucket. Calls that do not overlap are always right.", "quantifier": "all schedules of all numbers of threads, all their calls, all maps reached by any history, all comparison and hash functions", "why_tests_cant": "The wrong answers need a switch between two particular instructions; and a lookup looks like something that only reads.", "anchors": ["include/bmap.h:bmap_find", "include/bmap.h:bmap_contains", "include/bmap.h:bmap_get", "include/hbmap.h:hbmap_find", "include/hbmap.h:hbmap_contains", "include/hbmap.h:hbmap_get"]}
{"id": "C198", "title": "what the CRC does not notice", "statement": "A CRC is no protection against intent: whatever precedes and follows, exactly one choice of four bytes gives a message any desired CRC; CRCs of messages of equal length can be computed from each other by xor; the CRC of a concatenation depends only on the CRCs of the parts and the length of the second. A change that keeps the length is unnoticed exactly if the difference is a multiple of the generator polynomial. Zero bytes added at the end are unnoticed exactly if the CRC is ff ff ff ff (for CRC-32C also 50 d2 5b 03) or their number is a multiple of 2^32-1 (2^31-1 for CRC-32C); zero bytes in front exactly in the latter case.", "quantifier": "all messages, all ways of cutting them into updates, all target values, all numbers of zeros", "why_tests_cant": "Whether some change of some message goes unnoticed is a statement about all pairs of messages; the exceptional states and the periods are far out of reach of tests.", "anchors": ["src/crc32/crc32_impl.c:InitTables, Init, Update, Final"]}
{"id": "C199", "title": "digests can be continued without the data", "statement": "Whoever knows the MD5 or SHA-512 digest of some data and its length, but not the data, can fill a context from them and go on with further updates: the result is the digest of the data, its padding and the further data. So a digest of a secret followed by a message does not authenticate the message, and two messages of one length with equal digests give equal digests with any common continuation.", "quantifier": "all data, lengths, further updates, contents of uninitialised memory", "why_tests_cant": "It is a statement about all secrets; a test shows it for one.", "anchors": ["src/md5/md5.c:md5_init, md5_update, md5_end", "include/md5.h:md5_ctx", "src/sha512/sha512.c:sha512_init, sha512_update, sha512_end", "include/sha512.h:sha512_ctx"]}
{"id": "C200", "title": "threads that share the single size allocator", "statement": "The pool of the single size allocator is one static object without a lock. Whenever an allocation can succeed, two threads that allocate at the same time can be given the same block; if it is the last block, both can be given the memory behind the pool (or the code reads behind its bitmap); two threads that free two blocks can free only one of them. If calls do not overlap, the threads together see one sequential history. Threads that only allocate from a fresh pool get different blocks for every order of their steps exactly if at most one of them makes allocations that fit a block.", "quantifier": "all pool sizes and block sizes, all histories before, all programs of all threads, all interleavings", "why_tests_cant": "Interleavings cannot be enumerated by tests, and the bad ones are rare.", "anchors": ["include/ssalloc.c:SSA_POOL, ssa_alloc, ssa_set, ssa_free, ssa_init", "include/bitarray.h:BA_GET, BA_SET_TRUE, BA_SET_FALSE"]}
{"id": "C201", "title": "the texts of the same data", "statement": "base64dec decodes several texts to the same data: exactly those that differ from the text of base64enc in the unused bits of the last symbol, which are one, four or sixteen texts, depending on the length of the data modulo three. The documented zero behind the decoded data is there exactly if the text is the one that base64enc makes of the data; otherwise an unused non-zero byte follows. Encoding in two pieces gives the text of the whole exactly if the first has a multiple of three bytes or the second is empty; two texts one after the other are accepted exactly if the data of the first has a multiple of three bytes, and then give both data.", "quantifier": "all data, all texts, all destination sizes", "why_tests_cant": "The set of all texts of given data, and that no other text is accepted, cannot be enumerated by tests.", "anchors": ["src/strlib/base64dec.c:base64dec", "src/strlib/base64enc.c:base64enc", "include/strlib.h:BASE64DEC_BUFSIZE, base64dec"]}
{"id": "C202", "title": "texts with the same hash", "statement": "stringptr_hash can be steered: texts with the same hash keep it when the same is appended; anywhere in a text two adjacent bytes can be replaced by others without changing the hash; whatever stands before and after, there are 2^n different texts of 2n letters with the same hash; each of the 2^28 values is the hash of exactly one text of seven of the letters @ to O. So for every number of buckets, a hash list that is filled with texts from elsewhere can end up with all values in one bucket.", "quantifier": "all texts, all numbers of buckets, both widths of uint_fast32_t", "why_tests_cant": "A family of exponentially many texts and a bijection onto 2^28 values are beyond testing.", "anchors": ["src/stringptr/stringptr_hash.c:stringptr_hash", "src/hashlist/hashlist.c:hashlist_add, hashlist_get"]}
{"id": "C203", "title": "threads that share an sblist", "statement": "Threads may use one sblist without a lock as long as no thread sets an item that another one uses, at most one thread adds, the others stay away from the added items and the block has room for all of them: then every order of steps is defined and every thread gets what it would get alone. Calls that do not overlap are safe without these conditions and make one history. Otherwise, two threads that add at the same time can lose an item that was reported as stored, write behind the block, or hand a freed block to realloc; one that looks while another one adds can read a freed block, or get an item before it is stored; one that looks while another one sets can get a mixture.", "quantifier": "all lists, item sizes, programs, numbers of threads and orders of steps; any allocator", "why_tests_cant": "The schedules are unbounded in number and length, and a test sees one of them.", "anchors": ["src/sblist/sblist.c:sblist_add, sblist_grow_if_needed, sblist_set, sblist_get, sblist_item_from_index", "include/sblist.h:sblist"]}
{"id": "C204", "title": "what rc4 does not hide", "statement": "Encrypting two messages with the same key shows the difference of the texts. Changing bits of an encrypted message changes the same bits of the text and no others, unnoticed. Every call starts the key stream again: a message encrypted in two calls is the message encrypted in one call exactly if the key stream repeats at the cut. The key stream of every key repeats itself from its start after some number of bytes. A key whose schedule leaves 0 at index 2 and not 2 at index 1 leaves the second byte of every message as it is.", "quantifier": "all keys, messages and changes", "why_tests_cant": "They speak about all messages under all keys, and a period that is far too long to run through.", "anchors": ["src/strlib/rc4.c:rc4"]}
{"id": "C205", "title": "growing a stringptr", "statement": "After stringptr_grow the text of a non-empty stringptr can be read exactly if the block was not moved and the given size, which includes the 16 bytes of the structure, leaves room for it. Once the block was moved, every later access to the text is an error, however often it is grown again, until the program sets the text pointer itself. A failed call changes nothing. Byte i of the text can be written exactly if 16 + i, plus the bytes cut off by stringptr_shiftright, is less than the given size. Whatever was done, stringptr_free gives back the block, leaves all others, and does nothing when repeated on the same variable.", "quantifier": "all texts, sizes, results of realloc and histories of calls", "why_tests_cant": "Whether realloc moves the block depends on the heap; in tests it usually does not.", "anchors": ["include/stringptr.h:stringptr_grow", "include/stringptr.h:stringptr_free", "src/stringptr/stringptr_new.c:stringptr_new", "src/stringptr/stringptr_shiftright.c:stringptr_shiftright"]}
{"id": "C206", "title": "sizes that do not fit", "statement": "If memory is granted, stringptr_concat, stringptrlist_tostring, stringptrlist_tostring_dos and stringptr_replace are free of errors exactly if the result with its header and terminator takes less than 2^64 bytes; otherwise they write outside the result. Adding items to an sblist is free of errors exactly as long as the items fit into the size of the buffer computed modulo 2^64, although the list believes that it has room for more. A tglist with a buffer of at most 2^62 bytes and items of at most 2^60 has no such limit.", "quantifier": "all texts, lists, item sizes and block sizes", "why_tests_cant": "The limits are reached with sizes no test can allocate, though the wrapped requests are small.", "anchors": ["src/stringptr/stringptr_concat.c:stringptr_concat", "src/stringptrlist/stringptrlist_tostring.c:stringptrlist_tostring", "src/stringptrlist/stringptr_replace.c:stringptr_replace", "src/sblist/sblist.c:sblist_grow_if_needed", "include/tglist.h:tglist_grow_if_needed"]}
{"id": "C207", "title": "threads that share a hashlist", "statement": "Threads that use one hashlist at the same time are safe if no two calls on the same bucket overlap, in particular without any lock if they use different buckets: all calls together are one history. Two threads that add the first item of the same bucket can lose one of the items and its memory although both are told that it was added, can lose it because the allocation of the other one fails, and can dereference NULL. On a bucket that exists they can do what threads on one sblist can do: lose an item, use a freed block.", "quantifier": "all hashlists, programs of threads, schedules and allocation failures", "why_tests_cant": "The races need particular interleavings; the safety claim ranges over all schedules.", "anchors": ["src/hashlist/hashlist.c:hashlist_add", "src/hashlist/hashlist.c:hashlist_get", "src/sblist/sblist.c:sblist_add"]}
{"id": "C208", "title": "threads that share a bit array", "statement": "Threads that use different bits of one bit array at the same time all get what they would get alone, under every schedule, exactly if no thread changes a bit in a byte in which another thread sets a bit (to whatever value). Threads on different bytes need no lock; two threads that switch on two bits of the same byte can lose one of them.", "quantifier": "all arrays, programs of threads and schedules", "why_tests_cant": "The loss needs one particular interleaving; the safety claim ranges over all schedules.", "anchors": ["include/bitarray.h:BA_SET", "include/bitarray.h:BA_SET_TRUE", "include/bitarray.h:BA_SET_FALSE", "include/bitarray.h:BA_GET"]}
{"id": "C209", "title": "stress tests of the lists", "statement": "The stress programs that fill a list with numbered items and look at them again give the right verdict about the list for every item size, number of items, block size, random sequence and allocator: with fewer than 2^30 items and working memory for their own small blocks, the sblist program is defined and passes exactly if the list got all the memory it asked for, for the single test and for the series over all block sizes; the tglist program passes exactly then too, but may otherwise read outside of the list. With 2^30 items or a negative number the counters overflow, without memory for the small blocks NULL is dereferenced, and with the default block size and items of more than 4096 bytes the first addition writes outside of the list's memory.", "quantifier": "all data sizes, arguments, results of rand and of malloc/realloc", "why_tests_cant": "A run of the test is one random sequence and one allocator; the claim is about all of them.", "anchors": ["tests/sblist_test.c:test_single", "tests/sblist_test.c:test_each", "tests/tglist_test.c:test_single", "src/sblist/sblist.c:sblist_add", "include/tglist.h:tglist_add"]}
{"id": "C210", "title": "lists of strings by reference", "statement": "Every history of a list of strings or a list of keys with values - adding, setting, inserting, inserting sorted, deleting, reading, searching, with any outcome of the allocations and any change of the memory in between - is a history of a mathematical list of entries (pointer, length, value). Entries are kept by reference: a search finds the first entry whose bytes in memory are equal to the wanted string at that moment, kv_find leaves the value alone if there is none, and an entry with the same key added later is not seen.", "quantifier": "all histories of calls and memory changes, all allocation failures, both kinds of list", "why_tests_cant": "Histories, contents and allocation failures are unbounded; aliasing effects need particular orders of changes.", "anchors": ["include/stringptrlist.h:stringptrlist_add", "include/stringptrlist.h:stringptrlist_set", "include/stringptrlist.h:stringptrlist_insert", "include/stringptrlist.h:stringptrlist_insert_sorted", "include/kvlist.h:kv_add", "include/kvlist.h:kv_set", "src/kvlist/kvlist.c:kv_find", "src/stringptrlist/stringptrlist_find.c:stringptrlist_find"]}
{"id": "C211", "title": "using a hash context again", "statement": "No sequence of calls on a SHA-512 context is a memory error, whatever the context holds before. sha512_init makes any used context new: what follows gives the digest of the data since then. sha512_end uses the context up: called again it hashes the last one or two blocks of the padded message again, as often as it is called, and changes the bytes that earlier results point to; the second result for the empty message is not its digest. With MD5, in every sequence of calls every md5_end gives the digest of all the data since the last md5_init and does not disturb what follows.", "quantifier": "all sequences of init, update and end on one context, all data, all contents of the memory before", "why_tests_cant": "The sequences of calls are unbounded and depend on everything the context has seen before.", "anchors": ["src/sha512/sha512.c:sha512_init", "src/sha512/sha512.c:sha512_update", "src/sha512/sha512.c:sha512_end", "src/md5/md5.c:md5_init", "src/md5/md5.c:md5_update", "src/md5/md5.c:md5_end"]}
{"id": "C212", "title": "working with the guarded allocator", "statement": "After any sequence of guard_alloc and guard_free all bytes of every allocation in use are accessible and followed by an inaccessible page, no page belongs to two of them, and exactly one page is left behind for each allocation given back whose size was a multiple of the page size. The address is aligned to a power of two exactly if the size is a multiple of it. Accesses before the start are not noticed within the rest of the first page, which is at least one byte. guard_free with another size gives back nothing if the sizes differ modulo the page size, and otherwise as many pages as the given size says, including those of others. What the test of the allocator expects holds for every page size of at least 128 bytes.", "quantifier": "all sequences of calls, all answers of the system, all sizes, all page sizes that are powers of two", "why_tests_cant": "The sequences, sizes and places of the mappings are unbounded; leaks and neighbours show only in the memory map.", "anchors": ["include/guard_alloc.c:guard_alloc", "include/guard_alloc.c:guard_free", "tests/guard_alloc_test.c:main"]}
{"id": "C213", "title": "options with any names", "statement": "op_get is exact for every stringptr as name, also one with dashes or equals signs, a part of a longer string or an empty one: before an equals sign the characters of the stringptr count, otherwise the whole C string at its pointer, so with a part of a longer string `--out=x` is found, `--out x` is not, and `--output x` is taken for it; with the empty name the result can point behind the terminator. Contrary to the header, flags given together as in `-ltp` are not found: a flag of one character is set exactly if an argument is the dash and this character; and `arg=something` without a dash is never seen. A value that looks like an option is both.", "quantifier": "all argument vectors and all names", "why_tests_cant": "The texts of arguments and names are unbounded; tests use names that are literals.", "anchors": ["src/optparser/op_get.c:op_get", "src/optparser/op_hasflag.c:op_hasflag", "include/optparser.h:op_state"]}
{"id": "C214", "title": "stopwatches and times of files", "statement": "gettimestamp and mspassed make a stopwatch: it shows the milliseconds between the two readings of the clock, rounded down, and is defined exactly while these fit a long; the sum of any number of laps is never more than the time spent in them and lacks less than a millisecond for each (three laps of 999 microseconds count for nothing); a loop that waits until mspassed reaches a limit ends at the first reading that is at least the limit later, never earlier; around a msleep that returned 0, interrupted or not, it shows at least the time asked for. getFileModTime gives the time of the file, and 0 both for a missing file and for one from the epoch; comparing two of its results is right for files that exist and counts a missing file as one from the epoch.", "quantifier": "all clocks and histories of readings, all interruptions, all times of files", "why_tests_cant": "Clocks and interruptions cannot be chosen in a test, and a sum of laps is unbounded.", "anchors": ["src/timelib/gettimestamp.c:gettimestamp", "src/timelib/mspassed.c:mspassed", "src/timelib/getutime.c:getutime", "src/timelib/msleep.c:msleep", "src/filelib/getfilemodtime.c:getFileModTime"]}
{"id": "C215", "title": "alignment of items", "statement": "Whether memory that the containers hand out may be accessed as a type: items of an sblist, and so of a hashlist, kvlist or stringptrlist, are all aligned exactly if the buffer is and the item size is a multiple of the alignment (or there is just one); so are tglist items and with them keys and values of the maps; the text of a stringptr is aligned like its block. Items of a tlist are, on 64-bit platforms, always 8 bytes off a multiple of 16, so types with an alignment of 16 can never be stored in it without undefined accesses. All pointers of the single size allocator are aligned exactly if its pool is and the element size is a multiple; the pool is aligned for size_t only, and from a pool that is 8 bytes off a multiple of 16 no aligned block of 16 can ever be had.", "quantifier": "all alignments, item sizes and histories of calls", "why_tests_cant": "Misaligned accesses mostly go unnoticed on the machine of the test, and where blocks lie differs from run to run.", "anchors": ["src/sblist/sblist.c:sblist_get", "src/tlist/tlist.c:tlist_get, new_item, data", "include/ssalloc.c:ssa_alloc, ssa_pool", "include/tglist.h:tglist_get", "src/stringptr/stringptr_new.c:stringptr_new"]}
{"id": "C216", "title": "adding to a hashlist while iterating", "statement": "A hashlist may be added to while it is iterated over: at any time the items returned are the first of those that were added while the iteration had not passed their bucket, bucket by bucket and in the order added, and all of them once NULL is returned. So what was there at the start is returned exactly once, nothing is returned more often than it was added, and after NULL only NULL comes, even if items are added. A loop that adds for every item it gets another one in the same or a later bucket never ends; one that adds in earlier buckets only ends after one round for each original item.", "quantifier": "all bucket counts, item sizes, hash functions and interleavings of adds and steps of the iterator", "why_tests_cant": "Which of the new items are seen depends on the hash, the number of buckets and the moment of the add: a test sees a few interleavings.", "anchors": ["src/hashlist/hashlist_iterator.c:hashlist_iterator_init, hashlist_next", "src/hashlist/hashlist.c:hashlist_add"]}
{"id": "C217", "title": "settings of the single size allocator", "statement": "The single size allocator with other settings of its macros: the check that the number of elements is a power of two stops the compiler exactly for odd numbers. The type of the words searched depends on a macro that nothing defines (SSA_MAXLEN); with any word size all histories are defined and live elements never overlap, but an allocation may fail although an element is free exactly if the number of elements is neither a multiple of the bits of a word nor one more; with fewer elements than bits nothing is handed out again while the last element is live. The words read are aligned for every power of two, and otherwise exactly if the size of the memory is a multiple of the word size. With an element size that is a sum without parentheses elements overlap, the last one ends behind the pool, and none is ever given back.", "quantifier": "all numbers and sizes of elements, word sizes, addresses and histories of calls", "why_tests_cant": "Each configuration is a different program: tests are compiled with one of them.", "anchors": ["include/ssalloc.c:SSA_MAXELEM, SSA_ELEMSIZE, SSA_MAXLEN, SSA_COMPARETYPE, ssa_alloc, ssa_free, ssa_getaddr, ssa_getidx"]}
{"id": "C218", "title": "four ways to read lines", "statement": "The library's ways of reading a text by lines do not agree: the line reader gives the lines of every file whose lines fit its buffer; reading the file whole and splitting it gives one more, empty, line exactly if it ends with a line feed; stringptrlist_fromfile gives the lines exactly if none is empty or has 1024 bytes or more; read_stdin_line with chomp gives the lines of a text without zero bytes exactly if it is empty or ends with a line feed and every line leaves two bytes of the buffer. For no text that is not empty do splitting and read_stdin_line give the same.", "quantifier": "all texts, buffer sizes and partial reads", "why_tests_cant": "The differences show up at the last line, at empty lines and at lines about as long as a buffer: each text of a test settles one case.", "anchors": ["src/fileparser/fileparser_readline_userbuf.c:fileparser_readline_userbuf", "src/stringptrlist/stringptrlist_fromfile.c:stringptrlist_fromfile", "src/stringptr/stringptr_fromfile.c:stringptr_fromfile", "src/stringptrlist/stringptr_splitc.c:stringptr_splitc", "src/stringptr/read_stdin_line.c:read_stdin_line"]}
{"id": "C219", "title": "talking to a process", "statement": "A caller that writes a text to a copying process started with process_open and only then reads always comes to the end exactly if the text has at most one byte more than the two pipes hold, and can come to the end exactly if it has at most as many more as the process reads at once (or the first pipe holds, if less); longer texts leave both waiting for ever. A caller that reads whenever something is there always comes to the end. Reading standard output to its end before standard error ends exactly if all errors fit into the pipe. If some output was not read, process_close can return 0 for a process that would fail; it returns the exit code under every schedule exactly if all was read.", "quantifier": "all texts, pipe and buffer sizes, schedules and exit codes", "why_tests_cant": "A deadlock shows only for texts longer than the pipes and, in between, only under some schedules; a test runs one schedule.", "anchors": ["src/proclib/process.c:process_open, process_close", "include/proclib.h:struct process"]}
{"id": "C220", "title": "reading a file while it is saved", "statement": "A process that calls stringptr_fromfile while another saves to the same file gets NULL, a part from the start of the new text, or the first q bytes of the old text followed by the new text from there up to the length of the old; every part, and every such mixture if the new text is long enough, can happen, with q a multiple of 64 KiB or all of the old text if no read is cut short. It can come into a state from which it never returns exactly if the new text is shorter than the old. Nothing is undefined.", "quantifier": "all texts and schedules of the system calls of both processes", "why_tests_cant": "Which bytes are read depends on how the calls of two processes interleave; a test sees one order.", "anchors": ["src/stringptr/stringptr_fromfile.c:stringptr_fromfile", "src/stringptr/stringptr_tofile.c:stringptr_tofile", "src/stringptrlist/stringptrlist_tofile.c:stringptrlist_tofile", "src/filelib/getfilesize.c:getfilesize"]}
{"id": "C221", "title": "following a file that is replaced", "statement": "Whatever other programs do to a file, fileparser_readline gives what the file has behind the place where the reader is: changes before that place are never seen, and the result is -2 exactly if the file has no more bytes than that. So when a log that was read completely is truncated and written anew, its lines are not seen until it is longer than the old one, and reading then goes on in the middle of a line.", "quantifier": "all histories of changes and calls, all contents and buffers", "why_tests_cant": "A test replaces a file once, at one moment; whether lines are lost depends on the lengths before and after.", "anchors": ["src/fileparser/fileparser_readline_userbuf.c:fileparser_readline_userbuf", "src/fileparser/fileparser_readline.c:fileparser_readline", "src/fileparser/fileparser_getline.c:fileparser_getline", "src/fileparser/fileparser_open.c:fileparser_open"]}
{"id": "C222", "title": "places outside a list", "statement": "tglist has no bounds checks, and the calls differ in what a place outside the list does. tglist_get and tglist_set are defined exactly below the capacity: behind the items they reach the slack, which is not part of the list, and an item deleted from the end can still be read there. tglist_delete is defined exactly at items. tglist_insert behind the end is undefined, except that it reports failure if the list is full and there is no memory.", "quantifier": "all lists, item sizes, places and allocation results", "why_tests_cant": "A test at a place outside passes as long as it lies in the slack, which depends on the history of growth; for every place it is defined or not has to be proved.", "anchors": ["include/tglist.h:tglist_get, tglist_set, tglist_delete, tglist_insert, tglist_memmove_impl, tglist_grow_if_needed"]}
{"id": "C223", "title": "keys and tables of rc4", "statement": "The key schedule of rc4 makes of every non-empty key a table that has every byte value once, and every such table is made of some key of 256 bytes. There are fewer tables than keys: for every length from 211 bytes on there are two different keys of that length with which rc4 does the same to every message. And whatever the length of the keys, the tables are not equally likely: they do not all have the same number of keys.", "quantifier": "all keys, tables, key lengths and messages", "why_tests_cant": "There are 256 to the power 256 keys; that two of them agree on every message, or that every table is reached, is a statement about all of them.", "anchors": ["src/strlib/rc4.c:rc4"]}
{"id": "C224", "title": "a sorted list as a table", "statement": "A program that searches with sblist_bsearch before it adds with sblist_insert_sorted, and deletes what it found, has a table: under each key at most one item is stored, the one that was added first and not removed since; a failed allocation changes nothing; and going through the list gives the stored items in strictly ascending order. If items are added with sblist_add instead, an item in the wrong place is not found, and can be stored a second time.", "quantifier": "all histories of adding, removing and finding, all comparison functions that are total preorders, all results of allocations", "why_tests_cant": "The position of every search and insertion depends on the whole history; a test follows a few histories with one comparison function.", "anchors": ["src/sblist/sblist_bsearch.c:sblist_bsearch", "src/sblist/sblist_insert_sorted.c:sblist_insert_sorted", "src/sblist/sblist_delete.c:sblist_delete", "src/sblist/sblist.c:sblist_get, sblist_add"]}
{"id": "C225", "title": "questions and answers with a process", "statement": "A caller that writes a question to a process started with process_open, reads the whole answer, and goes on, comes to the end under every schedule if the process flushes its output after each answer, or if every answer fills the buffer of the process exactly; for the last answer it is enough to close fds[0] first. Otherwise it waits for ever under every schedule. What it reads is always the beginning of the answers in order. So the test program of process.c, which keeps fds[0] open, never ends with a process whose output is held in a buffer larger than the answer.", "quantifier": "all numbers of questions, answers, buffer and pipe sizes, and schedules", "why_tests_cant": "Whether the process holds its answers back depends on the program started and on the lengths of all answers before; a deadlock under every schedule cannot be told from slowness by a test.", "anchors": ["src/proclib/process.c:process_open, main"]}
{"id": "C226", "title": "closing the input of a process oneself", "statement": "proclib has no function to end the input of a process, so a program that needs this closes fds[0] itself. process_close then closes that number again. If nothing was opened in between this does nothing; otherwise it closes exactly the file that got the number of fds[0] and leaves all others. A program that opens some files in between loses one exactly if they are more than the descriptors that were free below fds[0]: with only the standard descriptors open it is the second file. Setting fds[0] to -1 avoids this.", "quantifier": "all descriptor tables and all histories of opening and closing files", "why_tests_cant": "Which file is lost depends on the whole descriptor table and on what other parts of the program open at the time.", "anchors": ["src/proclib/process.c:process_open, process_close", "include/proclib.h:struct process"]}
{"id": "C227", "title": "what a normalized path names", "statement": "Without symbolic links, whatever a path names is also named by what normalizepath makes of it, but not the other way round, as a missing directory can be left by '..'. With symbolic links this holds for exactly the paths without '..': for these the two name the same, except that a path with a slash or '/.' behind a file names nothing; and for every path with '..' there is a file system in which it and its normal form name different things. Absolute paths that climb above the root are refused although they name something.", "quantifier": "all absolute paths and all file systems of directories, files and links", "why_tests_cant": "Tests run in one file system and with some paths; where the links are is up to the system that the program runs on.", "anchors": ["src/filelib/normalizepath.c:normalizepath", "src/filelib/normalizepath_cstr.c:normalizepath_cstr", "include/filelib.h:normalizepath_cstr"]}
{"id": "C228", "title": "keeping requests within a directory", "statement": "A program can use getpathdiff to find out whether a path lies below a directory: it accepts if the result is positive and the text starts with a slash. Without symbolic links and for paths that can be normalized this accepts exactly what lies below the directory. But getpathdiff does not notice that a path cannot be normalized: behind any directory but the root, enough '..' followed by any other path make a path that is accepted and names that other thing. And with symbolic links no path below a directory is safe, not even without '..'.", "quantifier": "all directories, requests and file systems", "why_tests_cant": "The paths are chosen by an attacker, and tests do not cover all of them; the file system is that of the user.", "anchors": ["src/filelib/getpathdiff.c:getpathdiff", "src/filelib/normalizepath.c:normalizepath"]}
{"id": "C229", "title": "findword finds words", "statement": "Although strstr_uc can miss occurrences, findword does not miss words: if the word contains none of the characters that separate words, and stands somewhere in the text, findword returns that place or one in front of it. Of these words it is exactly those with at least two different characters for which the result is always the first place where the word stands, and NULL only if it stands nowhere. Words that contain separators can be missed.", "quantifier": "all texts and all words without separators", "why_tests_cant": "The errors of the search depend on the interplay of text and word; a test can only show the absence of errors for some pairs.", "anchors": ["src/strlib/findword.c:findword", "src/strlib/strstr_uc.c:strstr_uc"]}
{"id": "C230", "title": "what can be read from a log", "statement": "A log that was written with log_put, one call per message, and is split into lines with the library gives back the messages exactly if none of them contains a newline; every newline in a message makes one more line, and whatever was logged, a single message with one string leaves the same file. With a separator between its arguments a line gives the arguments back exactly if none contains the separator. Without one, numbers run together: the line of two numbers is also that of two others.", "quantifier": "all lists of messages of any arguments", "why_tests_cant": "Messages contain texts from outside; whether a log can be trusted is a statement about all of them.", "anchors": ["src/logger/log_put.c:log_put", "src/stringptrlist/stringptr_splitc.c:stringptr_splitc", "include/vario.h:VARIS, VARIU"]}
{"id": "C231", "title": "data of any bytes in text files", "statement": "Data written as base64 text with a separator between them and split again with the library come back from base64dec, called on the pointers of the pieces as they are, for every separator that is not one of the 65 characters of base64 text; each of the 65 occurs in the text of some data, and every occurrence of the separator in a text makes one more piece. An INI file with base64 values gives back every data, decoded from the pointer that the lookup returned, whatever bytes the data contain.", "quantifier": "all lists of data, all INI files, all separators", "why_tests_cant": "Data from outside may contain any bytes; that none breaks the file is a statement about all of them.", "anchors": ["src/strlib/base64enc.c:base64enc", "src/strlib/base64dec.c:base64dec", "src/stringptrlist/stringptr_splitc.c:stringptr_splitc", "src/iniparser/iniparser.c:iniparser_getvalue"]}
{"id": "C232", "title": "the order of time stamps", "statement": "Time stamps of the years 0 to 9999 sort (as texts, byte by byte) exactly like the calendar times they show, so that sorted lines of a log are in the order of time, and two of them are the same exactly if the times are. In general two times have the same stamp exactly if they agree but for multiples of 10000 years on the same side of the year 0. From the year 10000 on stamps sort before earlier ones, and before the year 0 the years sort backwards. A buffer of 11 bytes gets the date: the same text exactly for times on the same day.", "quantifier": "all pairs of calendar times", "why_tests_cant": "There are too many pairs of times; that the order of the texts is that of the times is a statement about all of them.", "anchors": ["src/timelib/timestamp.c:timestamp", "src/logger/log_timestamp.c:log_timestamp"]}
{"id": "C233", "title": "exactly which matches the pattern search finds", "statement": "strstr_uc and strstar try the first place of the text and, after a failure, the place behind the character that did not match; they return exactly the match at such a place, of which there is at most one. A match is passed (NULL or a later place is returned) exactly if the search, trying a place in front of it, fails with a character at or behind its start. A match at the start, or behind a character that does not occur in the needle, is not passed. A strstar pattern is found in every text that it matches exactly if it is one repeated character followed by stars; for every other pattern there is a text that contains it and NULL is returned.", "quantifier": "all texts, needles and places", "why_tests_cant": "Which texts hide a match depends on the text and the needle together.", "anchors": ["src/strlib/strstr_uc.c:strstr_uc", "src/strlib/strstar.c:strstar"]}
{"id": "C234", "title": "escaping by replacing", "statement": "Replacing a character by a non-empty text with stringptr_replace is undone by replacing the text by the character, for every string, exactly if the text contains the character. Replacing several special characters by texts that begin with a mark (the mark itself first, then the others; distinct letters behind the mark, as in the entities of HTML) is undone by the reverse calls, for every string. With the mark not first two strings get the same escaped form, and backslash sequences, which double the mark, are not undone by replacing.", "quantifier": "all strings, characters, replacement texts and tables", "why_tests_cant": "Strings to be escaped come from outside; that each comes back is a statement about all of them.", "anchors": ["src/stringptrlist/stringptr_replace.c:stringptr_replace"]}
{"id": "C235", "title": "descriptors and memory of the file functions", "statement": "Whatever the system answers, stringptr_fromfile, stringptr_tofile, stringptrlist_fromfile and stringptrlist_tofile work only on the descriptor they opened, never after closing it, and have closed it when they return, on every path; the one exception is stringptrlist_fromfile when it gets descriptor 0: it reads nothing, reports success and leaves the file open. A program started meanwhile by another thread inherits no descriptor, except that of stringptrlist_tofile, which is not opened close-on-exec. stringptr_fromfile leaves one block of memory if it returns a string and none if it returns NULL; stringptrlist_fromfile leaves one for each line added, and one more only if the list cannot grow.", "quantifier": "all answers of open, read, write, lseek and malloc, all sizes and contents, all moments of the run", "why_tests_cant": "Leaks are on the paths taken when a call fails; there are as many as there are sequences of answers of the system.", "anchors": ["src/stringptr/stringptr_fromfile.c:stringptr_fromfile", "src/stringptr/stringptr_tofile.c:stringptr_tofile", "src/stringptrlist/stringptrlist_fromfile.c:stringptrlist_fromfile", "src/stringptrlist/stringptrlist_tofile.c:stringptrlist_tofile", "src/fileparser/fileparser_close.c:fileparser_close"]}
{"id": "C236", "title": "settings kept in a file", "statement": "A program that keeps settings in an INI file finds each of them (the first `key=` in the first section of the name) if it reads the file with stringptr_fromfile and stringptr_linesplit. With stringptrlist_fromfile it finds a setting exactly if neither its line nor any line before it is empty or has 1024 bytes or more; otherwise it gets NULL, never another value. Writing the lines back with stringptrlist_tofile adds one line feed to the file in every round after splitting, and after stringptrlist_fromfile drops all that stands behind the first empty or long line; it leaves the file as it was exactly if there is no such line and the file is empty or ends with a line feed.", "quantifier": "all files, sections, keys, system answers to read without failure, numbers of rounds", "why_tests_cant": "A settings file is written by users; where it has an empty line or a long one is not known to the tests.", "anchors": ["src/iniparser/iniparser.c:iniparser_get_section, iniparser_getvalue", "src/stringptrlist/stringptrlist_fromfile.c:stringptrlist_fromfile", "src/stringptrlist/stringptrlist_tofile.c:stringptrlist_tofile", "src/stringptr/stringptr_fromfile.c:stringptr_fromfile", "src/stringptrlist/stringptr_splitc.c:stringptr_splitc"]}
{"id": "C237", "title": "tgilist used longer than its index type allows", "statement": "A tgilist with an unsigned index type of w bytes touches no foreign memory however many values are added. Values that were deleted are never given back: it holds as many values as were ever added. Each value added after the first 256^w cannot be read at all: its position reads as an older value, possibly one deleted long ago, and whatever is added. Positions that refer to the same value are one variable: setting one of them changes exactly these.", "quantifier": "all histories of add, insert, set, get and delete with positions that exist, with any failures in the two arrays, all item sizes and index widths", "why_tests_cant": "It shows only in programs that run long enough to add more values than the index type has numbers, even if the list stays short.", "anchors": ["include/tgilist.h:tgilist_add, tgilist_get, tgilist_set, tgilist_insert, tgilist_delete"]}
{"id": "C238", "title": "Inserting into an hbmap while looping over it", "statement": "A hbmap_foreach loop whose body inserts entries ends, touches no foreign memory and misses no entry that was there when it began; an entry it does not read was inserted while the loop was at an entry later in its order (bucket, then key). If the body inserts no smaller key into the bucket of the present entry, no entry is read twice and only entries inserted into earlier buckets are not read. A new smaller key in the bucket of the present entry makes the next round read the same entry again.", "quantifier": "all maps reached by any history, all legal hash and comparison functions, all bodies (insertions chosen by what was read so far, any finite number), all failures of memory", "why_tests_cant": "Whether the loop repeats or skips entries depends on where the hash and the order of keys put the new entry relative to the iterator.", "anchors": ["include/hbmap.h:hbmap_foreach, hbmap_insert, hbmap_next_valid_impl, hbmap_next_step, hbmap_iter_index_valid", "include/bmap.h:bmap_insert_nocheck"]}
{"id": "C239", "title": "Base64 with a small buffer or a wrong text", "statement": "When the text does not fit, base64enc_str leaves in a buffer of L bytes, L > 0, the terminated text of the first 3*((L-1)/4) bytes and touches nothing else, so a caller can print it and go on behind these bytes: with five or more bytes of buffer this prints the text of the whole source, with fewer it never ends. When base64dec fails on a text that is not empty, the buffer holds the bytes of the whole groups of four characters before the first character that is not allowed, as far as they have room, and is otherwise unchanged; no terminator is stored.", "quantifier": "all sources without zero byte, all texts of less than 2^31 characters, all buffers of all sizes", "why_tests_cant": "The contents after a failure depend on where among all texts and sizes the failure happens; tests look at the result only.", "anchors": ["src/strlib/base64enc_str.c:base64enc_str", "src/strlib/base64dec.c:base64dec", "include/strlib.h:base64enc_str, base64dec"]}
{"id": "C240", "title": "rc4 does not get into its short cycles", "statement": "The generator in rc4 has states from which it repeats itself after 65280 bytes: those where the second index is one after the first and the table has a 1 there; they return after exactly the multiples of 65280 bytes. No key leads there: however many bytes are converted in one call, the state before each byte is not one of these.", "quantifier": "all keys that are not empty, all numbers of bytes, all tables", "why_tests_cant": "Which states are reached after how many bytes cannot be tried out for all keys and lengths.", "anchors": ["src/strlib/rc4.c:rc4", "include/strlib.h:rc4"]}
{"id": "C241", "title": "Numbers kept in a settings file", "statement": "A setting written as the decimal numeral of an int is read back as this int by looking up the value and passing its pointer and size to strtoint, whatever else is in the file; only for the smallest int the behaviour is undefined. If the lines end with carriage return and line feed, every number is read as another one: ten times the number less 35 (plus 35 for a negative number). A setting that is not there is reported as missing.", "quantifier": "all files, sections, keys and ints (carriage return: below 2*10^8 in size), all patterns of partial reads", "why_tests_cant": "Needs all files and all numbers at once.", "anchors": ["src/iniparser/iniparser.c:iniparser_get_section, iniparser_getvalue", "src/strlib/strtoint.c:strtoint", "src/stringptr/stringptr_fromfile.c:stringptr_fromfile", "include/stringptrlist.h:stringptr_linesplit"]}
{"id": "C242", "title": "Joining with a string and splitting at it", "statement": "If no proper part of the delimiter is both its beginning and its end (such as CR LF or comma blank), texts joined with it are given back by stringptr_splits exactly if none of them contains it. For every other delimiter there are two texts, shorter than the delimiter, that are not given back. A list made into a text by stringptrlist_tostring_dos and split at CR LF gives the entries and one more, empty, text exactly if no entry contains CR LF; single carriage returns and line feeds in the entries do no harm.", "quantifier": "all delimiters that are not empty, all lists of texts of all lengths", "why_tests_cant": "An overlap depends on the delimiter and on what stands before it.", "anchors": ["src/stringptrlist/stringptr_splits.c:stringptr_splits", "src/stringptrlist/stringptrlist_tostring_dos.c:stringptrlist_tostring_dos", "src/stringptr/stringptr_here.c:stringptr_here"]}
{"id": "C243", "title": "Lines without their ends", "statement": "Splitting any text with stringptr_linesplit and calling stringptr_chomp for every entry touches no foreign memory and gives every line without all the carriage returns at its end; the entries stay terminated. A list made into a text by stringptrlist_tostring_dos or stringptrlist_tostring comes back in this way, with one more, empty, entry, exactly if no entry contains a line feed or ends with a carriage return.", "quantifier": "all texts, all lists of texts", "why_tests_cant": "The entries share one buffer that both functions write to; whether they stay apart must hold for all texts.", "anchors": ["src/stringptrlist/stringptr_splitc.c:stringptr_splitc", "src/stringptr/stringptr_chomp.c:stringptr_chomp", "src/stringptrlist/stringptrlist_tostring_dos.c:stringptrlist_tostring_dos", "src/stringptrlist/stringptrlist_tostring.c:stringptrlist_tostring", "include/stringptrlist.h:stringptr_linesplit"]}
{"id": "C244", "title": "Replacing one text by another and back", "statement": "Replacing text A by another text B with stringptr_replace and then B by A gives the original string exactly if B is in none of the pieces between the occurrences of A, provided that no proper part of B is both its beginning and its end; so in particular if B is not in the string. For every other B and every character that is not in B there is a string without B in which replacing the character by B is not undone by replacing B by the character.", "quantifier": "all strings, all pairs of different non-empty texts", "why_tests_cant": "Occurrences of the second text can arise across the places of replacement; to exclude this needs all strings and all pairs of texts.", "anchors": ["src/stringptrlist/stringptr_replace.c:stringptr_replace", "src/stringptrlist/stringptr_splits.c:stringptr_splits"]}
{"id": "C245", "title": "Whether replacing leaves nothing to replace", "statement": "stringptr_replace with a different replacement returns the text unchanged exactly if the pattern is not in it. Deleting a pattern with one call leaves no occurrence of it, whatever the string, exactly if the pattern is one character, once or repeated; so removing ../ from a path can leave ../ in it. Replacing the pattern by one character that is not in it leaves no occurrence.", "quantifier": "all strings, all non-empty patterns", "why_tests_cant": "New occurrences arise from what stands around the removed ones; that none arises must hold for all strings.", "anchors": ["src/stringptrlist/stringptr_replace.c:stringptr_replace", "src/stringptrlist/stringptr_splits.c:stringptr_splits"]}
{"id": "C246", "title": "Replacing until nothing is left to replace", "statement": "Calling stringptr_replace as long as stringptr_contains finds the pattern ends for every string if the replacement is shorter than the pattern, after at most as many rounds as the string has bytes, with a result that is not longer and does not contain the pattern; a string without the pattern is returned as it is, and with an empty replacement the result is the string with some characters left out. If the replacement contains the pattern the loop never ends well for any string with the pattern.", "quantifier": "all strings, patterns and replacements", "why_tests_cant": "Every round can bring new occurrences; that they run out, or never do, must hold for all strings and any number of rounds.", "anchors": ["src/stringptrlist/stringptr_replace.c:stringptr_replace", "src/stringptr/stringptr_contains.c:stringptr_contains"]}
{"id": "C247", "title": "Splitting at a character and at a text of one character", "statement": "stringptr_splits at a text of one character and stringptr_splitc at that character do the same for every string: the same pieces at the same places, the same changes to the buffer, the same entries lost if the list cannot grow, the same errors if the buffer is too short. The last piece is what follows the place stringptr_rchr finds for the character; if it finds none, the text is the only piece.", "quantifier": "all strings and characters, all patterns of failing growth", "why_tests_cant": "The two functions are written separately; that they agree must hold for all strings and failures.", "anchors": ["src/stringptrlist/stringptr_splitc.c:stringptr_splitc", "src/stringptrlist/stringptr_splits.c:stringptr_splits", "src/stringptr/stringptr_rchr.c:stringptr_rchr"]}
