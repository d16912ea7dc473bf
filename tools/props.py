# Generates /verif/properties.jsonl (kept so that the list is easy to extend).
import json
P=[]
def p(title, statement, quantifier, why, anchors):
    P.append(dict(id="C%02d"%(len(P)+1), title=title, statement=statement, quantifier=quantifier,
                  why_tests_cant=why, anchors=anchors))
# ---------------------------------------------------------------- strlib: codecs
p("base64 round trip",
  "Encoding any non-empty byte string with base64enc into a buffer of BASE64ENC_BUFSIZE(n) bytes and decoding the result with base64dec into a buffer of at least BASE64DEC_BUFSIZE bytes returns n and yields exactly the original n bytes; no byte outside either buffer is touched. For the empty string decoding returns 0.",
  "every byte string of every length, every destination buffer of sufficient size and any previous content",
  "byte strings are unbounded in length and there are 256^n of each length; tests sample a handful",
  ["src/strlib/base64enc.c:base64enc","src/strlib/base64dec.c:base64dec","src/strlib/base64_tbl.c","include/strlib.h:BASE64ENC_BUFSIZE,BASE64DEC_BUFSIZE"])
p("base64enc output is RFC 4648 base64",
  "base64enc(dst, src, n) writes exactly the RFC 4648 padded base64 text of the n bytes followed by one zero byte: BASE64ENC_BYTES(n) characters, and nothing after the terminator is modified.",
  "every byte string, every destination buffer of at least BASE64ENC_BUFSIZE(n) bytes",
  "unbounded input length and content",
  ["src/strlib/base64enc.c:base64enc","include/strlib.h:BASE64ENC_BYTES"])
p("base64dec is safe on arbitrary text and accepts exactly padded base64",
  "For every zero-terminated text and every dst_len, base64dec never reads past the terminator and never writes outside the dst_len bytes of dst; it returns a non-zero size exactly when the text is non-empty, consists of whole groups of four characters of the alphabet with at most two '=' only at the very end, and dst_len exceeds BASE64DEC_BYTES; the returned size is that of the decoded data and dst is zero-terminated after the last decoded group.",
  "every zero-terminated text (malformed ones included) and every destination size including 0",
  "malformed inputs and buffer sizes form an infinite space; an out-of-bounds write may go unnoticed in a test",
  ["src/strlib/base64dec.c:base64dec,chrpos"])
p("base64enc_str respects its buffer size and agrees with base64enc",
  "base64enc_str(dst, s, dst_len) never writes outside dst_len bytes; it returns 1 exactly when dst_len >= BASE64ENC_BUFSIZE(strlen s), in which case dst holds the same text base64enc would produce; otherwise it returns 0.",
  "every zero-terminated string and every dst_len including 0",
  "all combinations of string length and buffer size",
  ["src/strlib/base64enc_str.c:base64enc_str"])
p("hex round trip",
  "raw2hex writes the 2n-digit lower-case hex text of any n bytes plus a terminator into a (2n+1)-byte buffer, and hex2raw of that text restores the n bytes and returns n, within an n-byte buffer.",
  "every byte string, every destination buffer content",
  "unbounded input", ["src/strlib/raw2hex.c:raw2hex","src/strlib/hex2raw.c:hex2raw"])
p("hex2raw reads any hex text as one big-endian number",
  "For every text of hex digits in either case, of even or odd length L, hex2raw writes exactly (L+1)/2 bytes, returns (L+1)/2, and the bytes read as a big-endian number equal the value of the hex text; it never writes outside a buffer of (L+1)/2 bytes, also for texts that contain non-hex characters. Its only undefined behaviour is the left shift of -1 for a non-hex character in the high half of a pair.",
  "every zero-terminated text", "unbounded texts, both parities, both cases",
  ["src/strlib/hex2raw.c:hex2raw,hval"])
p("rc4 is an involution and matches the RC4 definition",
  "For every non-empty key, applying rc4 twice with the same key restores any input; the output has the input's length and each output byte is the input byte xored with the keystream byte of the standard RC4 key schedule, so a prefix of the input encrypts to the same prefix of the output and encrypting in place gives the same result.",
  "every key of every non-zero length, every input", "key and data spaces are infinite",
  ["src/strlib/rc4.c:rc4"])
p("decimal conversion of 64-bit numbers is canonical and exact",
  "uint64ToString and int64ToString return a zero-terminated string inside the caller's buffer that is the canonical decimal numeral of the number (no leading zeros, a '-' exactly for negative numbers), for every number including 0 and INT64_MIN, and need at most 21 bytes of buffer.",
  "all 2^64 values of each type", "2^64 values",
  ["src/strlib/uint64ToString.c","src/strlib/int64ToString.c","src/strlib/uintToString.c","src/strlib/intToString.c","src/strlib/numberToString.c"])
p("numberToString in every even base",
  "For every even base from 2 to 62, every number, every flag combination and every maximum length, numberToString writes only the documented number of bytes and returns a string that, read back in that base, equals the number (its magnitude for a signed negative one, preceded by '-') modulo base^maxlen when a maximum length is given; odd bases and bases above 62 return NULL without writing; base 0 is undefined behaviour for non-zero numbers.",
  "every number, base, flag set, maxlen and buffer", "the parameter space is astronomically large",
  ["src/strlib/numberToString.c:numberToString","src/strlib/conv_cypher.c","include/strlib.h:numberToString_flags"])
p("utoa: exact range of correctness",
  "utoa writes the canonical decimal numeral of n for every n up to 3294967296 within 11 bytes, and for every larger unsigned value it writes before the start of the buffer.",
  "all 2^32 values", "boundary inside a 2^32 domain; the out-of-bounds write is silent in a test",
  ["src/strlib/utoa.c:utoa"])
p("itoa: exact range of correctness",
  "itoa writes the canonical decimal numeral of n within 12 bytes for every int except INT_MIN, for which it has undefined behaviour.",
  "all 2^32 values", "2^32 values", ["src/strlib/itoa.c:itoa"])
p("parsing inverts printing",
  "strtoint64 of the text produced by int64ToString returns the original number for every number of at most 18 digits without signed overflow, and strtoint of the text produced by intToString returns the original for every int except INT_MIN; with 19 digits strtoint64 executes a signed overflow.",
  "all 64-bit (32-bit) signed values", "2^64 values",
  ["src/strlib/strtoint64.c","src/strlib/strtoint.c","src/strlib/int64ToString.c","src/strlib/intToString.c"])
p("IPv4 text round trip",
  "stringfromipv4 writes the canonical dotted-quad text of any 4 bytes (at most 15 characters plus terminator, within 16 bytes); ipv4fromstring of that text returns 1 and restores the 4 bytes, and isnumericipv4 accepts it.",
  "all 2^32 addresses", "2^32 addresses",
  ["src/strlib/stringfromipv4.c","src/strlib/ipv4fromstring.c","src/strlib/isnumericipv4.c"])
p("isnumericipv4: exact set of accepted texts",
  "isnumericipv4 returns 1 exactly for texts made of digits and dots only that do not start with a dot, have no two adjacent dots, have exactly three dots and between 4 and 12 digits (so it rejects anything else, but also accepts some texts that are not addresses).",
  "every zero-terminated text", "infinitely many texts", ["src/strlib/isnumericipv4.c"])
p("pattern search never reports a false match, and is exact where it is exact",
  "A pointer returned by strstr_uc (case-insensitive, upper-case needle) or strstar ('*' matches any character) points at a real match inside the string; for one-character needles NULL means there is no match and a pointer is the first match; for longer needles NULL does not imply absence.",
  "every haystack and needle", "infinitely many texts",
  ["src/strlib/strstr_uc.c","src/strlib/strstar.c"])
p("findword reports an occurrence of the word with a proper right boundary",
  "Whenever findword returns a pointer it points at a case-insensitive occurrence of the word inside the string that is followed by the end of the string or a separator; the left-boundary guarantee fails for self-overlapping words.",
  "every text and word", "infinitely many texts", ["src/strlib/findword.c"])
p("character classification and case conversion",
  "isAlpha is exactly isLetter or isNumber, isLetter is exactly isUpper or isLower, classes agree with the ASCII ranges; makeupper/makelower change exactly the letters of the other case, are idempotent and invert each other on letters; hexval agrees with the value of hex digits and is 0 otherwise.",
  "all 256 character values", "exhaustive claim over all characters and compositions",
  ["src/strlib/isAlpha.c","src/strlib/isLetter.c","src/strlib/isUpper.c","src/strlib/isLower.c","src/strlib/isNumber.c","src/strlib/makeupper.c","src/strlib/makelower.c","src/strlib/hexval.c","include/strswitch.h"])
p("strends and containsChar",
  "strends(a,b) is true exactly when b is a suffix of a; containsChar(s,c) is true exactly when the non-zero character c occurs in s (and false for NULL).",
  "every pair of strings", "infinitely many strings", ["src/strlib/strends.c","src/strlib/containsChar.c"])
# ---------------------------------------------------------------- checksums
p("CRC is independent of chunking and equals the bitwise definition",
  "After CRC32(C)_InitTables, feeding any data in any sequence of Update calls and calling Final stores the little-endian CRC that the bit-by-bit reflected definition with the published polynomial, initial value 0xffffffff and final complement gives for the concatenated data.",
  "every byte string and every way of cutting it into update calls", "unbounded data and exponentially many chunkings",
  ["src/crc32/crc32_impl.c:InitTables,Init,Update,Final"])
p("CRC detects every burst of up to 32 bits",
  "Two messages of the same length that differ only within a window of at most 32 consecutive bits (in transmission order), and do differ, have different CRCs; in particular every single-bit and single-byte error is detected.",
  "every message, every error pattern of span at most 32 bits at every position", "infinitely many messages and error positions",
  ["src/crc32/crc32_impl.c"])
p("CRC residue",
  "Appending the four bytes stored by Final to the message gives a message whose CRC is a constant that does not depend on the message.",
  "every message", "infinitely many messages", ["src/crc32/crc32_impl.c"])
p("MD5 is independent of chunking and equals RFC 1321",
  "md5_init, any sequence of md5_update calls and md5_end store the RFC 1321 MD5 digest of the concatenated data; md5_end does not change the context, so one may continue updating.",
  "every byte string and every way of cutting it into update calls", "unbounded data and exponentially many chunkings",
  ["src/md5/md5.c"])
p("md5str",
  "md5str writes the 32 lower-case hex digits of the MD5 of the data and a terminator, exactly 33 bytes.",
  "every byte string", "infinitely many inputs", ["src/md5/md5str.c"])
p("SHA-512 equals FIPS 180-4 for the documented chunking",
  "sha512_init, any sequence of updates whose sizes are multiples of 128, an optional last update of any size, and sha512_end store the FIPS 180-4 SHA-512 digest of the concatenated data, and never access outside the 256-byte internal buffer.",
  "every byte string shorter than 2^64 bytes and every documented chunking", "unbounded data",
  ["src/sha512/sha512.c"])
# ---------------------------------------------------------------- sblist
p("sblist behaves like a list of fixed-size items",
  "Starting from a fresh list with a positive item size and block size, after any sequence of add, addi, set, get, insert (at positions up to the size), delete and pop with arbitrary allocation failures, every operation returns what the same operation on a mathematical list of item values returns, and no memory outside the list's buffer is accessed.",
  "every operation sequence, item size, block size, item value and pattern of allocation failures", "unbounded histories and failure schedules",
  ["src/sblist/sblist.c","src/sblist/sblist_addi.c","src/sblist/sblist_insert.c","src/sblist/sblist_delete.c","src/sblist/sblist_pop.c"])
p("sblist: a failed growth changes nothing",
  "When an allocation fails, sblist_add/insert/addi report failure and the list's size and contents are unchanged.",
  "every state and operation", "failure schedules cannot be enumerated", ["src/sblist/sblist.c:sblist_grow_if_needed","src/sblist/sblist_insert.c"])
p("sblist_insert_sorted keeps the list sorted",
  "For every comparison function that is a total preorder, inserting into a sorted list yields a sorted list that is a permutation of the old items plus the new one, located at the returned index, with the old items in their old relative order; it terminates.",
  "every sorted list, item and total-preorder comparison", "all lists and comparison functions",
  ["src/sblist/sblist_insert_sorted.c","src/sblist/sblist_insert_sorted_r.c","include/tglist.h:tglist_sorted_insert_pos_impl"])
p("sblist_bsearch is exact",
  "On a sorted list sblist_bsearch returns an index whose item compares equal when one exists and -1 otherwise; it always terminates and never looks outside the list.",
  "every sorted list, item and total-preorder comparison", "all lists and comparison functions",
  ["src/sblist/sblist_bsearch.c","src/sblist/sblist_bsearch_r.c"])
p("sblist memory bound and the zero block size",
  "A list whose block size is non-zero never holds more items than its allocated capacity; a list made by sblist_new_from_data (block size 0), or by sblist_new with block size 0 and items larger than 4096 bytes, overruns its buffer on the first add that succeeds.",
  "every history of adds", "silent heap overflow", ["src/sblist/sblist_new_from_data.c","src/sblist/sblist.c:sblist_init,sblist_grow_if_needed"])
p("sblist_free_values frees the wrong pointers",
  "The documented effect (free every stored pointer) does not hold: for every non-empty list sblist_free_values passes addresses inside the list's own buffer to free and leaves the stored pointers unfreed.",
  "every non-empty list of pointers", "heap corruption may go unnoticed", ["src/sblist/sblist_free_values.c"])
# ---------------------------------------------------------------- tlist
p("tlist behaves like a list",
  "After any sequence of insert, append, delete, get and getsize on a new tlist with fewer than 2^32-1 items, each operation returns what it would on a mathematical list; insert at positions beyond the size and delete at or beyond the size return 0 and change nothing.",
  "every operation sequence and any allocation failures", "unbounded histories; tree shapes depend on a pseudo-random sequence",
  ["src/tlist/tlist.c"])
p("tlist structure invariants",
  "In every reachable tlist each node's stored count equals the size of its subtree and no node has a smaller priority than one of its children; deleting frees exactly the node that was unlinked.",
  "every operation sequence", "unbounded histories", ["src/tlist/tlist.c:merge,split,remove,insert"])
p("tlist_get outside the list",
  "The documented NULL for an index at or beyond the size is not delivered: tlist_get returns a non-null pointer that does not point to an item, and indices are taken modulo 2^32.",
  "every list and out-of-range index", "all states", ["src/tlist/tlist.c:tlist_get,data,getitem"])
p("tlist deep delete frees an interior pointer",
  "tlist_delete_deep on a valid index passes the address of the stored pointer inside the node, not the stored pointer, to free.",
  "every non-empty list", "heap corruption", ["src/tlist/tlist.c:tlist_delete_impl"])
p("tlist_free_items empties the list",
  "tlist_free_items terminates, leaves size 0 and frees every node exactly once.",
  "every reachable list", "unbounded sizes", ["src/tlist/tlist.c:tlist_free_items_impl"])
# ---------------------------------------------------------------- tglist family
p("tglist behaves like a list",
  "After any sequence of add, set, get, insert (up to the size) and delete (below the size) with arbitrary allocation failures each operation acts as on a mathematical list, a failing operation changes nothing, accesses stay inside the allocation, and the capacity is 0 or 4*2^k.",
  "every valid operation sequence", "unbounded histories and failure schedules", ["include/tglist.h"])
p("tgilist behaves like a list and rolls back on failure",
  "After any sequence of add, insert, set, get and delete with arbitrary allocation failures in either of its two internal arrays, tgilist acts as a mathematical list; a failing add or insert changes nothing observable; as long as the number of values ever added fits the index type.",
  "every valid operation sequence and failure schedule", "unbounded histories", ["include/tgilist.h"])
p("bmap is a finite map",
  "After any sequence of bmap_insert, lookups and deletes, with a comparison function that is a total order up to equality of keys, bmap_get returns the value of the last insert for that key not followed by its deletion, keys are strictly sorted and unique, and keys and values stay aligned.",
  "every operation sequence", "unbounded histories", ["include/bmap.h"])
p("bmap insertion failure",
  "If memory runs out during an insertion the map is unchanged; bmap_insert_nocheck then reports -1, but bmap_insert reports a valid-looking index when only the value array failed to grow.",
  "every state and failure point", "failure schedules", ["include/bmap.h:bmap_insert,bmap_insert_nocheck"])
p("hbmap is a finite map",
  "After any sequence of hbmap_insert and hbmap_delete of found entries, hbmap_find/hbmap_get agree with a mathematical map for every hash function compatible with the key comparison and every bucket count from 1 to 2^32-1.",
  "every history, hash function, bucket count", "unbounded histories and arbitrary hash functions", ["include/hbmap.h"])
p("hbmap_foreach visits every entry exactly once",
  "Iterating an unmodified hbmap with hbmap_foreach terminates and yields each valid entry exactly once, in bucket order.",
  "every reachable map", "all maps", ["include/hbmap.h:hbmap_foreach,hbmap_next_valid_impl"])
# ---------------------------------------------------------------- hashlist, kvlist
p("hashlist lookup",
  "hashlist_get(h) after any sequence of adds holds, in insertion order, exactly the values whose hash is congruent to h modulo the bucket count, so every value added under h is found; failed adds store nothing; the failure of growing a bucket is reported as 1, not as the documented -1.",
  "every history of adds and failures", "unbounded histories", ["src/hashlist/hashlist.c"])
p("hashlist iteration",
  "If no add failed, repeatedly calling hashlist_next from a fresh iterator yields every stored value exactly once and then NULL forever; a bucket left empty by a failed add or by deletions makes one call return NULL in the middle, after which the iteration goes on.",
  "every table", "all tables", ["src/hashlist/hashlist_iterator.c"])
p("kv_find returns the first match",
  "kv_find returns 1 and the value of the first entry whose key equals the wanted bytes, or 0 and leaves the result untouched when there is none.",
  "every list and key", "all lists", ["src/kvlist/kvlist.c"])
# ---------------------------------------------------------------- stringptr
p("stringptr comparison, search and hash",
  "stringptr_eq is byte-wise equality of contents (and true for two NULLs); stringptr_contains is true exactly for substrings; stringptr_here(h,pos,n) is true exactly when n occurs at pos, for pos up to the size; equal strings hash equally and hashes are below 2^28.",
  "every pair of strings and position", "all strings", ["src/stringptr/stringptr_eq.c","src/stringptr/stringptr_contains.c","src/stringptr/stringptr_here.c","src/stringptr/stringptr_hash.c"])
p("stringptr_hash does not depend on the platform's word width",
  "stringptr_hash gives the same value whether uint_fast32_t has 32 or 64 bits.",
  "every string", "all strings", ["src/stringptr/stringptr_hash.c"])
p("stringptr trimming and searching from the right",
  "shiftright/shiftleft drop exactly count bytes from the front/back or change nothing and return 0; chomp removes exactly the maximal suffix of CR and LF bytes and returns its length, keeping the string terminated; rchr returns the last occurrence or NULL.",
  "every string", "all strings", ["src/stringptr/stringptr_shiftright.c","src/stringptr/stringptr_shiftleft.c","src/stringptr/stringptr_chomp.c","src/stringptr/stringptr_rchr.c"])
p("stringptr copying",
  "stringptr_copy, stringptr_strdup and stringptr_concat produce a fresh, zero-terminated buffer holding exactly the contents (the concatenation for concat) and the right size, inside the allocation.",
  "every list of strings", "all strings", ["src/stringptr/stringptr_copy.c","src/stringptr/stringptr_strdup.c","src/stringptr/stringptr_concat.c","src/stringptr/stringptr_new.c"])
# ---------------------------------------------------------------- stringptrlist
p("splitting at a character",
  "stringptr_splitc returns the pieces between occurrences of the delimiter, in order: joining them with the delimiter gives the original, no piece contains it, there is one more piece than occurrences; the buffer afterwards is the original with every delimiter and the byte after the end replaced by zero.",
  "every string and delimiter below 128", "all strings", ["src/stringptrlist/stringptr_splitc.c"])
p("splitting at a string",
  "For a non-empty delimiter stringptr_splits returns the pieces of the left-to-right non-overlapping split: joining them with the delimiter gives the original and the number of pieces is matches plus one; with an empty delimiter it never terminates.",
  "every string and delimiter", "all strings", ["src/stringptrlist/stringptr_splits.c"])
p("stringptr_replace",
  "stringptr_replace returns a new string in which every left-to-right non-overlapping occurrence of the non-empty pattern is replaced, with the exact size and no byte left unwritten; replacing a pattern by itself returns the original contents.",
  "every buffer, pattern and replacement", "all strings", ["src/stringptrlist/stringptr_replace.c"])
p("joining lines",
  "stringptrlist_tostring (tostring_dos) returns every entry followed by LF (CR LF), with the exact size; splitting the result of tostring at LF gives back the entries plus a final empty one when no entry contains LF.",
  "every list", "all lists", ["src/stringptrlist/stringptrlist_tostring.c","src/stringptrlist/stringptrlist_tostring_dos.c"])
p("stringptrlist_find / contains",
  "stringptrlist_find returns the index of the first entry equal to the wanted string, or -1 exactly when none is; contains agrees with it.",
  "every list", "all lists", ["src/stringptrlist/stringptrlist_find.c","src/stringptrlist/stringptrlist_contains.c"])
p("string list file round trip",
  "Writing a list with stringptrlist_tofile and reading it with stringptrlist_fromfile gives the same list exactly when no entry is empty, contains LF, or is longer than 1023 bytes; reading stops at the first empty or over-long line.",
  "every list and file content", "all lists", ["src/stringptrlist/stringptrlist_tofile.c","src/stringptrlist/stringptrlist_fromfile.c","src/fileparser/fileparser_readline_userbuf.c"])
# ---------------------------------------------------------------- fileparser
p("fileparser_readline enumerates the lines",
  "On a regular file, successive fileparser_readline calls return the LF-separated lines in order (a last line without LF included) and then the end-of-file code, as long as every line including its LF fits the buffer; a line that does not fit yields -3 and leaves the position unchanged.",
  "every file content and buffer size", "all files; boundary cases at the buffer size", ["src/fileparser/fileparser_readline_userbuf.c","src/fileparser/fileparser_readline.c"])
p("fileparser_getnextlinelength",
  "fileparser_getnextlinelength returns the length of the next line, of any length, without moving the position, except that it returns -1 for an unterminated last line whose length is a positive multiple of 1024 (and at end of file).",
  "every file and position", "all files", ["src/fileparser/fileparser_getnextlinelength.c"])
# ---------------------------------------------------------------- filelib
p("normalizepath resolves a path",
  "For every absolute path shorter than PATH_MAX, normalizepath succeeds exactly when no '..' climbs above the root, and then yields '/' followed by the remaining components joined by '/' (just '/' if none), where empty and '.' components are dropped and '..' removes the previous component; relative paths fail. It reads at most the terminator and writes only within the original path's bytes.",
  "every path", "all paths", ["src/filelib/normalizepath.c"])
p("normalizepath_cstr agrees with normalizepath and is idempotent",
  "normalizepath_cstr computes the same function within an output buffer of strlen(path)+1 bytes; normalizing a normalized path changes nothing.",
  "every path", "all paths", ["src/filelib/normalizepath_cstr.c"])
p("getpathdiff",
  "When the second normalized path extends the first as a string, getpathdiff stores the remaining part, zero-terminated, and returns its length; it returns -1 when the second is shorter or a longer path does not extend the first; for equally long different paths it returns 0, and the difference does not start with '/' when the first is no whole component of the second.",
  "every pair of paths", "all paths", ["src/filelib/getpathdiff.c"])
p("file name and extension",
  "getfilename returns what follows the last '/', NULL if there is none; getFileExt returns what follows the last '.' that is not the first character, and for a non-empty name without such a dot everything after the first character.",
  "every name", "all names", ["src/filelib/getfilename.c","src/filelib/getfileext.c"])
p("mktempdir never overruns its buffer",
  "For every prefix and buffer size mktempdir either returns 0 or leaves in the buffer a zero-terminated path whose length is the returned value, made of the chosen directory, the prefix and six letters or digits, for which mkdir succeeded; it writes only inside the buffer.",
  "every prefix, buffer size, random sequence and mkdir outcome", "all environments", ["src/filelib/mktempdir.c","src/filelib/ulz_mkdtemp.c"])
# ---------------------------------------------------------------- format
p("formatted printing stays inside the buffer",
  "For every format string of literals and the supported conversions with one-digit precisions, ulz_snprintf with destsize >= 1 writes only inside dest, terminates it, and returns the number of characters stored, which is the smaller of the full length and destsize-1, the stored text being that prefix of the full text; with a NULL dest it returns the full length.",
  "every format, argument list and destination size", "all formats and sizes", ["src/format/ulz_vsnprintf.c"])
p("formatted text of each conversion",
  "%d, %u, %ld, %lu, %lld, %llu, %zd, %zu print the canonical decimal of the argument, %s the string, %c the character, %% a percent sign, and a one-digit precision pads decimal numbers with zeros to exactly that many digits, cutting higher digits off; %x prints negative ints as 16 hex digits.",
  "every argument value", "all values", ["src/format/ulz_vsnprintf.c","src/strlib/numberToString.c"])
p("precision parsing",
  "A one-digit precision is taken as is; a two-digit precision is taken as its first digit; three or more digits can exceed the 32-byte conversion buffer, giving undefined behaviour.",
  "every precision text", "all formats", ["src/format/ulz_vsnprintf.c"])
p("timestamp format",
  "For every calendar time with year 0..9999, timestamp writes 'YYYY-MM-DD HH:MM:SS' (19 characters) into a 20-byte buffer; for every other year that fits an int it writes a minus sign if the year is negative and the four lowest digits; smaller buffers get a terminated prefix. Later years overflow an int.",
  "every calendar time", "all times", ["src/timelib/timestamp.c","src/logger/log_timestamp.c"])
# ---------------------------------------------------------------- ini, opt
p("INI sections",
  "iniparser_get_section returns the line after the first header line of that section and the number of lines up to the next header or the end; successive iniparser_get_next_section calls visit every section of that name in order and then return the empty section.",
  "every list of lines", "all files", ["src/iniparser/iniparser.c"])
p("INI values",
  "iniparser_getvalue returns the text after 'key=' of the first line in the section that starts with 'key=', a NULL result exactly when there is none, and never looks outside the section.",
  "every list of lines, section and key", "all files", ["src/iniparser/iniparser.c"])
p("INI section count",
  "iniparser_count_sections counts exactly the lines of at least 3 bytes that start with '[' and, ignoring trailing blanks and tabs, end with ']'.",
  "every list of lines", "all files", ["src/iniparser/iniparser_count_sections.c"])
p("command line options",
  "op_hasflag is true exactly when some argument is '-flag' (or '--flag' for names longer than one character); op_get returns the value of the first argument of the form '-name=value' or '-name' followed by another argument (with a second '-' allowed for longer names), NULL otherwise.",
  "every argument vector", "all vectors", ["src/optparser/op_get.c","src/optparser/op_hasflag.c"])
# ---------------------------------------------------------------- allocators, bits, endianness
p("ssalloc never hands out overlapping memory",
  "For every sequence of allocations and frees, two live allocations are distinct aligned elements of the pool; freeing NULL-like misaligned, foreign or already freed pointers inside or after the pool changes nothing.",
  "every history", "unbounded histories", ["include/ssalloc.c"])
p("ssalloc fails only when it must",
  "For pool sizes that are multiples of 8, an allocation of at most the element size fails only if every element is live; for smaller pools a freed element may be unobtainable.",
  "every history", "unbounded histories", ["include/ssalloc.c:ssa_alloc"])
p("bit array laws",
  "Setting a bit makes that bit read back as set and leaves every other bit unchanged, for every index within BA_SIZE_REQUIRED bytes; BA_GET_SWAPPED reads the mirrored bit of the same byte.",
  "every array and pair of indices", "all arrays", ["include/bitarray.h"])
p("guard_alloc places the guard page directly after the allocation",
  "The n bytes returned by guard_alloc end exactly at the protected page and start inside the mapping; guard_free unmaps exactly the mapping when n is not a multiple of the page size, and leaks the first page when it is.",
  "every n and page size that is a power of two", "all sizes", ["include/guard_alloc.c"])
p("byte swapping",
  "byteswap16/32/64 reverse the bytes and are involutions, on little- and big-endian machines; what le16 and le32 give is stored least significant byte first on both.",
  "all values", "2^64 values", ["include/endianness.h"])
# ---------------------------------------------------------------- time, logger, files, processes
p("time arithmetic",
  "timespec_diff is the exact signed difference in nanoseconds for normalized times, antisymmetric and additive; mspassed is the floor of the elapsed time in milliseconds; msleep/microsleep request exactly the given duration in normalized form.",
  "all times in range", "all values", ["src/timelib/timespec_diff.c","src/timelib/mspassed.c","src/timelib/msleep.c","src/timelib/microsleep.c","src/timelib/getutime.c"])
p("sleep resumes after signals",
  "However often nanosleep is interrupted, msleep returns only after an uninterrupted completion (0) or a non-EINTR error (-1), and on success the total time slept equals the requested time.",
  "every sequence of interruptions", "schedules", ["src/timelib/msleep.c","src/timelib/microsleep.c"])
p("log_put output",
  "log_put writes the concatenation of the texts of its arguments (decimal for numbers, nothing for NULL strings) followed by one newline.",
  "every argument list", "all argument lists", ["src/logger/log_put.c","src/logger/log_puts.c","src/logger/log_putd.c","src/logger/log_putc.c","src/logger/log_putln.c"])
p("whole-file write and read",
  "stringptr_tofile returns the size exactly when everything was written, whatever partial writes occur, and what was written is always a prefix of the buffer; stringptr_fromfile returns the whole content for any pattern of partial reads of an unchanged file and never terminates if the file shrinks in between.",
  "every buffer and pattern of partial reads and writes", "schedules of partial I/O", ["src/stringptr/stringptr_tofile.c","src/stringptr/stringptr_fromfile.c"])
p("process_open does not leak descriptors",
  "If process_open fails at any step, every pipe descriptor it created is closed again provided none of them is 0; on success exactly the three parent ends remain open and process_close closes them.",
  "every failure point", "failure schedules", ["src/proclib/process.c"])
p("glob escaping and filtering in filelist_search",
  "The directory part handed to glob is the directory with '[', '?', '*' escaped and never exceeds the path buffer; results '.' and '..' are dropped unless asked for when hidden files are included.",
  "every directory, mask, flag set and glob result", "all inputs", ["src/filelist/filelist.c"])
exec(open('/verif/tools/props_more.py').read()) if __import__('os').path.exists('/verif/tools/props_more.py') else None
exec(open('/verif/tools/props_text.py').read())
with open('/verif/properties.jsonl','w') as f:
    for q in P: f.write(json.dumps(q)+"\n")
print(len(P))
