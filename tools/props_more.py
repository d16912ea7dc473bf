p("strdup_n copies one byte more than the given length",
  "strdup_n(s, len) returns NULL for a NULL string, length 0 or failed allocation and otherwise a fresh copy of the first len+1 bytes, so it reads outside an object that holds exactly len bytes; the copy of a whole zero-terminated string is zero-terminated.",
  "every object, length and allocation outcome", "all lengths and object sizes", ["src/strlib/strdup_n.c"])
p("tglist_free_values frees exactly the stored pointers",
  "tglist_free_values on a list of pointers whose non-null pointers are distinct allocated objects frees exactly those objects, once each, skips null pointers and leaves the list empty.",
  "every such list and heap", "double frees and leaks depend on the whole heap", ["include/tglist.h: tglist_free_values"])
p("tglist_insert_sorted keeps sorted lists sorted",
  "tglist_insert_sorted either stores the item at the returned index, shifting later items and, if the list was sorted by a total preorder, leaving it sorted, or returns -1 with the list unchanged, which happens only if memory was needed and refused.",
  "every list, item, comparison function and allocation outcome", "all list lengths and orders", ["include/tglist.h: tglist_insert_sorted"])
p("read_stdin_line's chomp", "With chomp set, read_stdin_line removes the last byte of what fgets delivered, whatever it is, so a line longer than the buffer or an unterminated last line loses a byte of text; without it the whole line is returned; at the end of input a NULL string of size 0.",
  "every line and buffer", "all lines and buffer sizes", ["src/stringptr/read_stdin_line.c"])
p("stringptr_new's size limit", "stringptr_new(n) gives a zero-terminated string of size n inside its allocation for every n with n+17 < 2^64; for every larger n the allocation size wraps around and the terminator is written outside it.",
  "every size", "the boundary is at 2^64", ["src/stringptr/stringptr_new.c"])
p("stringptr_hash is the ELF hash", "stringptr_hash returns the System V ELF (PJW) hash of the text.", "every string", "all strings", ["src/stringptr/stringptr_hash.c"])
p("duplicating the entries of a string list", "stringptrlist_dup_entries replaces the entries in order by fresh terminated copies; it returns -1 if all allocations succeed and otherwise the index of the first that fails, the entries from there on being untouched.",
  "every list and pattern of allocation failures", "all lists and failure patterns", ["src/stringptrlist/stringptrlist_dup_entries.c"])
p("freeing the strings of a list", "stringptrlist_freestrings is a valid sequence of frees exactly when the non-NULL pointers of the entries are distinct live allocations; it then frees exactly those and clears every entry.",
  "every list and heap", "all lists", ["src/stringptrlist/stringptrlist_freestrings.c"])
p("stringptrlist_add_strdup", "After any sequence of stringptrlist_add_strdup calls on an empty list, a call returned 1 exactly when both its allocations succeeded; freeing the strings afterwards is allowed and leaves exactly the copies of those calls allocated in which the list could not grow.",
  "every sequence of calls and failures", "failures at any point", ["src/stringptrlist/stringptrlist_add_strdup.c"])
p("CRC before InitTables", "An Update with at least one byte before InitTables dereferences a null pointer; without data it does nothing.",
  "every state and data", "all data", ["src/crc32/crc32_impl.c: T, Update"])
p("CRC Final is not idempotent", "Final changes the context: a second Final on the same context stores the bitwise complement of the CRC, and a later Update continues from the complemented state.",
  "every context", "all states", ["src/crc32/crc32_impl.c: Final"])
p("SHA-512's chunk size restriction is real", "Feeding data in updates whose sizes are not multiples of 128 (except the last) does not give the digest of the data: what an update has behind its last whole block of 128 bytes counts only by its length if a later update has at least as much behind its own, so that data differing only there get the same digest; two one-byte updates give a wrong one. In general what is hashed is the whole blocks of all updates, then one or two blocks in which the rests of the updates lie over each other, with the padding byte at the total length modulo 128.",
  "all sequences of updates, and all data of the same lengths", "a test of the documented use never exercises it", ["src/sha512/sha512.c:sha512_update"])
p("precision of non-numeric conversions leaks",
  "A precision written with %s, %c or %% has no effect on it but is applied to the next numeric conversion that has none of its own.",
  "every string, number and precision", "all formats",
  ["src/format/ulz_vsnprintf.c"])
p("unsupported formats fail",
  "Every format string is a sequence of literals and supported conversions, or one followed by an unsupported conversion (also a % at the end, a precision without digits, or %l/%z without d or u); in the latter case, and for a NULL %s argument, printing returns -1 and the destination holds the text so far without terminator.",
  "every format string, argument list and destination", "all formats",
  ["src/format/ulz_vsnprintf.c"])
p("printing to a descriptor or a new string",
  "ulz_printf and ulz_fprintf write the first 4095 characters of the formatted text (nothing for an empty one) and stringptr_format returns its first 999 characters; for an unsupported format the former read far behind their buffer and the latter returns a string whose size is the largest size_t.",
  "every format and argument list", "all formats",
  ["src/format/ulz_fprintf.c", "src/format/ulz_printf.c", "src/stringptr/stringptr_format.c"])
p("writing a string list under partial writes",
  "stringptrlist_tofile returns 1 exactly when every write transferred all it was given, the file then holding each string followed by a line feed; otherwise it returns 0 and the file holds a proper prefix of that.",
  "every list and pattern of partial or failing writes", "schedules of partial I/O",
  ["src/stringptrlist/stringptrlist_tofile.c"])
p("standard descriptors of a started process",
  "If 0, 1 and 2 are open in the caller and process_open succeeds, the child's descriptors 0, 1 and 2 are the read end of the first, and the write ends of the second and third pipe, whose other ends are the caller's fds[0], fds[1] and fds[2]; no other descriptor of the pipes is open in the child.",
  "every descriptor table and choice of pipe descriptors", "all tables",
  ["src/proclib/process.c"])
p("descriptors of a daemon",
  "After daemonize, among the descriptors up to the limit exactly 0, 1 and 2 are open, all on /dev/null (none if that cannot be opened); the calling process ends with status 0, or 1 and a message if it could not fork.",
  "every descriptor table, limit and answer of fork", "all tables",
  ["src/proclib/daemonize.c"])
p("A directory with a backslash in its name",
  "filelist_search does not escape a backslash in the directory: for a directory name with a backslash before an ordinary character it asks glob for the directory whose name lacks the backslash, so the directory given is never the one searched. In general the pattern stands for the directory given, and only for it, exactly if that has no backslash in its name.",
  "every directory", "a statement about every such name and about what the pattern can match", ["src/filelist/filelist.c: cpystr_escape, filelist_search"])
p("Two flipped bits, and odd numbers of flipped bits",
  "If two messages of the same length differ in exactly two bits, CRC32 gives them the same value exactly when the distance of the two bits is a multiple of 2^32-1, and CRC32C exactly when it is a multiple of 2^31-1; CRC32C gives different values to messages that differ in an odd number of bits, and CRC32 does not always do so.",
  "all pairs of messages, of any length and cut into any updates", "the first undetected pair of bits is 256 or 512 MB apart and the number of pairs is unbounded", ["src/crc32/crc32_impl.c"])
p("CRC as remainder of polynomials",
  "The four bytes stored by Final are the only four bytes which, appended to the message, make the bit sequence a multiple of the generator polynomial (0x104C11DB7 or 0x11EDC6F41) after its first and last 32 bits are complemented.",
  "every message, every way of cutting it into updates, and every four bytes", "existence and uniqueness for infinitely many messages", ["src/crc32/crc32_impl.c", "include/crc32_impl.h"])
p("The documented meaning of the CRC",
  "crc32_impl.h says the value stored makes 1[buf]...[buf][cbuf] a multiple of the polynomial. For CRC32C this is true of no message. For CRC32 it is true exactly of the messages whose length in bytes is 1840962096 modulo 2^32-1.",
  "every message", "the shortest message for which the documentation is right has 1.7 GB", ["include/crc32_impl.h:Final", "src/crc32/crc32_impl.c: Init, Final"])
p("hex prints its whole input",
  "The hex program prints two lower-case hexadecimal digits for every byte of its standard input, in order, and a newline, whatever the sizes of the pieces read delivers.",
  "every input and every division of it into reads of at most 1024 bytes", "all inputs and schedules", ["examples/hex.c"])
p("crc32_printer",
  "For a file, crc32_printer computes the CRC32C, the CRC32 and the complement of the CRC32 of the whole content, or of its first N bytes if a count N from 0 to 65536 is given. Its buffer overflows exactly if a count above 65536 or below -1 is given and the file has more than 65536 bytes.",
  "every file and every count", "all files and counts", ["examples/crc32_printer.c"])
p("find_identical_files compares contents",
  "The comparison of two files says they are identical exactly if they are, or if the first is the beginning of the second and its length a multiple of 16384; together with the comparison of the sizes, a pair of files is printed exactly if its contents are equal (mode i) or different (mode n).",
  "every pair of files", "all pairs of contents of any length", ["examples/find_identical_files.c: compare_files, process_path"])
p("find_identical_files and trailing slashes",
  "For a file found in both directories, the path built for the second directory is right exactly if both directory arguments end in a slash or neither does; with a slash on the first only, directory and file name run together.",
  "every pair of directory names and every file name", "all names", ["examples/find_identical_files.c: process_path"])
p("diff output",
  "diff prints the sizes if they differ, then one line for each block it reports and the number of these lines. It reports nothing exactly if one file is the beginning of the other; every maximal block of differing bytes that lies at least as far from the end of the shorter file as it is long is reported with its offset and length. It never reads outside the files. For a file without content it crashes or fails an assertion.",
  "every pair of files", "all pairs of contents of any length", ["examples/diff.c: diff"])
p("diff reports wrong offsets near the end of the file",
  "Every maximal block of differing bytes that is nearer to the end of the shorter file than it is long is reported as beginning one byte before it really does, for a block at offset 0 at offset 2^64-1.",
  "every pair of files with such a block", "a statement about all such files", ["examples/diff.c: diff"])
p("string lists of copies", "Any sequence of stringlist_add_dup calls, whatever allocations fail, leaves a list of zero-terminated copies of the strings of the calls that returned 1, in order, and leaks nothing; stringlist_get gives NULL for every index outside the list.", "every sequence of strings and every pattern of allocation failures", "all histories and all failures", ["include/stringlist.h: stringlist_get, stringlist_add_dup"])
p("stringlist_foreach", "stringlist_foreach visits every entry once, in order, and leaves its variable NULL.", "every list", "lists of every length", ["include/stringlist.h: stringlist_foreach"])
p("sptrlist", "sptrlist_get gives the stored pointer for an index in the list and dereferences a null pointer for any other; sptrlist_set and sptrlist_add replace and append or, with result 0, change nothing.", "every list, index and pointer", "all lists and indices", ["include/sptrlist.h"])
p("sblist_sort", "After sblist_sort with a comparison function that is a total preorder the list holds the same items in sorted order, and sblist_bsearch finds an item exactly if the list held an equal one before.", "every list and every total preorder", "all lists and comparison functions", ["src/sblist/sblist_sort.c", "src/sblist/sblist_bsearch.c"])
p("freeing a whole string list", "stringptrlist_freeall frees the strings of the entries, the list's buffer and the list object, each once and nothing else; NULL is ignored.", "every list and heap", "all lists", ["src/stringptrlist/stringptrlist_freeall.c", "src/sblist/sblist.c: sblist_free"])
p("descriptors of the file parser", "fileparser_close closes the parser's descriptor exactly if it is not 0, and only once. If descriptor 0 was not open, the first fileparser_open gets it, cannot read a line through it and never closes it; any number of later open and close pairs leaves the set of open descriptors unchanged.", "every parser, every set of open descriptors and every number of files", "all histories", ["src/fileparser/fileparser_close.c", "src/fileparser/fileparser_open.c", "src/fileparser/fileparser_readline_userbuf.c"])
p("op_printall", "op_printall prints every argument but the program's name, in order, each followed by a newline.", "every list of arguments", "all argument lists", ["src/optparser/op_printall.c"])
p("the stdio replacements are not replacements", "The replacement of puts never prints the newline puts prints; that of perror agrees with perror exactly for strings that are neither NULL nor empty; that of fprintf prints to standard output or error only if the compiler gives equal string literals the same address, and never to any other stream.", "every string, format, argument list and compiler", "all strings; the compiler's choice", ["include/stdio-repl.h"])
p("codedup reports repeated blocks", "For every file and a minimum of at least one line, codedup prints reports of blocks of at least the minimal length; each lists places where the block is repeated, all of them repetitions that cannot be made longer and that do not overlap one another; longer blocks come first, then earlier ones; the blocks of two reports do not overlap. A repetition with at least one line more than the minimum after its start is reported at its first line with at least its length, unless that line lies inside a reported block or occurs again early in the block.", "every file, option and order in which the map is visited", "all files of any length", ["examples/codedup.c: main, line_equal, sortitem_cmp"])
p("what codedup misses", "A block repeated at the very end of the file is missed: 2n lines that consist of the same n lines twice print nothing with minimum n, with one more line they are reported. If codedup prints nothing, every repetition of the minimal length is at the end of the file or begins with a line that occurs again inside the block; for lines a, a, b, a, a, a, b, y and minimum 3 such a repetition is indeed missed.", "every file", "all files", ["examples/codedup.c: main"])
p("codedup -i 0 never ends", "With a minimum of 0 codedup never ends, for every file with a line to look at.", "every file and option", "non-termination", ["examples/codedup.c: main"])
p("codedup -w and characters above 127", "With -w, a line whose first character that is not white space is in 128..254 makes codedup call isspace with an invalid argument.", "every file with such a line", "undefined behaviour in all files of a kind", ["examples/codedup.c: main"])
p("codedup's lines", "codedup -e N reads the file as if it ended before its line N-1, counted from zero. A line of 1023 bytes is counted as two, the second of them empty.", "every file", "all files", ["examples/codedup.c: main"])
p("the line reader and failing system calls", "Whatever read and lseek answer, fileparser_readline_userbuf stays in its buffer; an error of read is returned and changes nothing; an error of lseek is returned, with the line in the buffer and the file left behind all that was read; text without line feed that does not fill the buffer is returned as a line even if the line goes on. If read delivers all it can and nothing fails the line is the next line of the file.", "every file, position, buffer and every answer of the system", "all schedules and failures of the system calls", ["src/fileparser/fileparser_readline_userbuf.c"])
p("short reads lose text", "If a line is delivered in pieces, each piece is returned as a line of its own, with success, and then as many bytes of the next line are skipped as there were pieces before the last.", "every line, every division into pieces, every text after it", "all schedules of reads", ["src/fileparser/fileparser_readline_userbuf.c"])
p("stringptrlist_fromfile takes errors for the end of the file", "If reading fails in the n-th call, stringptrlist_fromfile returns 1 and the list has only the first n of the lines it would have got.", "every file and every failing call", "all crash points", ["src/stringptrlist/stringptrlist_fromfile.c"])
p("the map with indexed values is a map", "With BMAP_USE_TGILIST any sequence of at most 2^32 insertions, lookups and deletions, with any allocation failures, behaves like a mathematical map and lists its entries in key order. When memory is refused during the insertion of a new key nothing is inserted; if it is refused for the key array both insertion functions return -1, if for one of the arrays of the value list bmap_insert_nocheck returns -1 but bmap_insert an index.", "every sequence of operations, every comparison that is a weak order, every allocation failure", "all histories and allocation failures", ["include/bmap.h: BMAP_USE_TGILIST, bmap_insert, bmap_insert_nocheck, bmap_get, bmap_delete", "include/tgilist.h"])
p("the map with indexed values never reclaims", "With BMAP_USE_TGILIST deleted values are never reclaimed: n insertions each followed by a deletion leave an empty map that stores n values. After 2^32 of them an insertion succeeds, but its key has the value of the first insertion ever.", "every key, every number of values", "2^32 operations", ["include/bmap.h", "include/tgilist.h: tgilist_insert, tgilist_delete"])
p("destroying a map", "bmap_fini frees the keys if bit 0 of the flags is set and keys are of the size of a pointer, the values likewise for bit 1, and the arrays, each once and nothing else, provided these pointers are distinct and allocated; otherwise there is an invalid free. With BMAP_USE_TGILIST the values of deleted entries are freed as well, so a program that frees a deleted value itself gets a double free.", "every map, heap and flags", "all maps and heaps", ["include/bmap.h: bmap_fini", "include/tglist.h: tglist_free_values", "include/tgilist.h: tgilist_free_values"])
p("find_identical_files walks the directories", "If all directories that exist on both sides can be listed, the files in them read, and the calls of process_path happen to return 0, find_identical_files prints, each once and on its own line, exactly the paths in the first directory of the files that exist under the same relative path in the second one and whose contents are equal (mode i) or different (other modes). It ends for every file system, also one in which directories contain themselves.", "every pair of directory trees, every file system and every argument list", "all trees, unbounded depth, links that form cycles", ["examples/find_identical_files.c: main, process_path"])
p("find_identical_files stops early", "If a subdirectory of both directories cannot be listed on one side, or if the value of process_path, which lacks a return statement, is not 0, nothing that follows this subdirectory in the list of the first directory is printed and the exit status is not 0.", "every pair of directories with a common subdirectory", "the value is left to the compiler", ["examples/find_identical_files.c: process_path"])
p("normalising paths with a drive", "Compiled with PSPLIKE_PATH, normalizepath_cstr accepts exactly the paths whose first slash is at the start or follows a colon; it normalises what follows the drive like an absolute path and keeps the drive in front; it fails if the path climbs above its root, and never writes beyond strlen(path)+1 bytes.", "every path", "all paths", ["src/filelib/normalizepath_cstr.c: normalizepath_cstr"])
p("normalising twice with a drive", "With PSPLIKE_PATH, normalising a normalised path again changes nothing, except that the root of a drive (ms0:/) becomes the drive alone (ms0:), which is refused when it is normalised again.", "every path", "all paths", ["src/filelib/normalizepath_cstr.c: normalizepath_cstr"])
p("lists give their memory back", "Whatever is done with a list (sblist) or a hash list and whichever allocations fail meanwhile, freeing it frees no block twice and leaves exactly the blocks that were allocated before it was made. A list owns at most two blocks. Freeing it again is an error.", "every sequence of operations and every allocation failure", "all histories and allocation failures", ["src/sblist/sblist.c: sblist_new, sblist_free, sblist_free_items, sblist_grow_if_needed", "src/hashlist/hashlist.c: hashlist_new, hashlist_add, hashlist_free"])
p("stringptr_replace leaks memory", "Every successful stringptr_replace leaves one block besides its result allocated for ever. If the result cannot be allocated it returns NULL and leaves its list and the items allocated; if the list cannot be allocated it returns NULL and leaves nothing.", "every text, separator, replacement and every allocation failure", "all inputs and allocation failures", ["src/stringptrlist/stringptr_replace.c"])
p("stringptr_replace with a list that did not grow", "If the list of pieces cannot grow, pieces are missing in the result of stringptr_replace, and the result ends with as many uninitialised bytes as the missing pieces and their separators had.", "every text, separator, replacement and every allocation failure", "all inputs and allocation failures; the bytes are left to the allocator", ["src/stringptrlist/stringptr_replace.c", "src/stringptrlist/stringptr_splits.c"])
p("what filelist_search leaves allocated", "After a successful search filelist_free gives all memory back. If the list cannot be made all memory has been given back. If a path has no name the list stays allocated until filelist_free is called. If a name cannot be added the list is freed but not its items, if there are any, which is possible only if FLF_INCLUDE_DOT or FLF_INCLUDE_DOT_DOT without FLF_INCLUDE_HIDDEN was asked for; filelist_free must not be called then, it would free the list again.", "every list of paths, flags and every allocation failure", "all inputs and allocation failures", ["src/filelist/filelist.c: filelist_search, filelist_free"])
p("listing a directory tree", "filelist_find_test and filelist_find_test2 print, for every directory tree, the path of the directory and the paths of all files and directories in it (hidden ones too, but neither . nor ..), each once on a line of its own, every directory before its contents and with a slash at the end. Only directories that cannot be listed (no permission, path too long) are missing, names included; compared with find, as many lines are missing as there are such directories.", "every directory tree", "all trees", ["examples/filelist_find_test.c", "examples/filelist_find_test2.c", "src/filelist/filelist.c: filelist_search"])
p("listing ends in every file system", "filelist_find_test and filelist_find_test2 end without an invalid access whatever the file system looks like (directories may contain themselves through links), whichever searches fail, and for any arguments. With one argument they report success, without one 1.", "every file system and every argument list", "all file systems, also infinite ones", ["examples/filelist_find_test.c", "examples/filelist_find_test2.c"])
p("listing the wrong directory", "filelist_find_test takes the empty argument for the root directory. If there is no memory for the path it lists the current directory after an empty line, and reports success.", "every argument and directory tree", "all trees; an allocation failure", ["examples/filelist_find_test.c: main, doDir", "src/filelist/filelist.c: filelist_search"])
p("system calls of the logger", "log_put calls write once for each argument with a text that is not empty and once for the newline; log_puterror up to four times; log_puts, ulz_printf and ulz_fprintf at most once.", "every argument list", "all argument lists", ["src/logger/log_put.c", "src/logger/log_puts.c", "src/logger/log_puterror.c", "src/format/ulz_fprintf.c", "src/format/ulz_printf.c"])
p("log output under partial writes", "The result of write is ignored. Of each text that log_put writes any beginning may arrive, independently of the others: a text in the middle of a line may be missing while the rest is there, and the caller does not learn of it. Of the output of ulz_printf and ulz_fprintf a beginning arrives. If all calls write all their bytes everything arrives.", "every argument list and every behaviour of write", "all behaviours of write", ["src/logger/log_put.c", "src/logger/log_puts.c", "src/logger/log_putd.c", "src/format/ulz_fprintf.c"])
p("log lines of two processes", "Two processes that log to the same file with log_put may tear each other's lines, whatever they log, even if every write is atomic: the text of one, the text of the other and two newlines is always possible. Two outputs of ulz_printf or ulz_fprintf can only follow each other, in one order or the other.", "every two argument lists and every schedule", "all schedules", ["src/logger/log_put.c", "src/format/ulz_fprintf.c"])
p("the result of process_close", "For a child that exits process_close returns its exit code modulo 256. For a child that is killed by a signal it returns 0, as for a successful one. If waiting is interrupted or fails it returns an arbitrary number below 256.", "every exit code, signal and content of uninitialised memory", "all ways to end", ["src/proclib/process.c: process_close"])
p("classes of printable characters", "STRSWITCH_PRINTABLE stands for the printable characters of ASCII without the accent, the circumflex and the bar. STRSWITCH_C_PRINTABLE stands for those of them that need no backslash in C constants (and not the question mark), STRSWITCH_SH_PRINTABLE for those of these that are not special between double quotes in a shell. No class contains a character twice.", "every character", "all characters", ["include/strswitch.h"])
p("adding a list's own item", "Handing sblist functions a pointer to an item of the same list: sblist_add of item i appends a copy of it if the buffer has room, reads freed memory if the buffer is full and memory is available, and fails without effect otherwise. sblist_insert at pos is correct for an item before pos, inserts the predecessor for an item behind pos, and is undefined for the item at pos. sblist_set copies between different positions and is undefined for equal ones. Adding what sblist_pop returned is always undefined. sblist_insert_sorted of an item of a list without equal items is always undefined or out of memory.", "every list, index, position, allocator and comparison function that is a weak order", "all lists and states of the buffer", ["src/sblist/sblist.c: sblist_add, sblist_set, sblist_grow_if_needed", "src/sblist/sblist_insert.c", "src/sblist/sblist_insert_sorted.c", "src/sblist/sblist_pop.c"])
p("expressions over the list in tglist macros", "tglist_add(l, tglist_get(l, i)) appends item i whether or not the buffer grows. tglist_insert(l, tglist_get(l, i), pos) inserts item i if i <= pos and item i-1 otherwise. tglist_add(l, tglist_get(l, tglist_getsize(l)-1)) does not append the last item: it appends the bytes behind the list, which after growth can be anything.", "every list, index, position and allocator", "all lists; the bytes are left to the allocator", ["include/tglist.h: tglist_add, tglist_insert, tglist_set, tglist_get"])
p("values in the text of an INI file", "Splitting the text of an INI file with stringptr_linesplit, then iniparser_get_section and iniparser_getvalue: for every text, section and key the result is the text behind 'key=' on the first such line between the first line starting with '[section]' and the next line starting with '[', or NULL; it is followed by a zero byte. The text of any file whose names have no ']', whose keys have no '=' and no leading '[', and without line feeds in them, gives back exactly its values.", "every text, section and key; every file of sections and entries", "all texts", ["examples/iniparser_test.c", "src/iniparser/iniparser.c: iniparser_get_section, iniparser_getvalue", "src/stringptrlist/stringptr_splitc.c"])
p("INI files that are read differently", "In an INI file with DOS line ends every value found ends in CR. A section named a]b before the section a answers for a. An entry k with the value v=w answers for the key k=v.", "every file with such line ends, names or values", "all files of a kind", ["src/iniparser/iniparser.c: iniparser_get_section, iniparser_getvalue", "src/stringptrlist/stringptr_splitc.c"])
p("deleting while iterating over an hbmap", "hbmap_foreach(map, i) while(hbmap_iter_index_valid(map, i)) hbmap_delete(map, i) empties every map; with a further condition on key and value in the while it deletes exactly the entries that meet it and keeps the order of the others. Without the inner loop exactly the second, fourth, ... entry of each bucket survives.", "every map reached by any history, every condition", "all histories, all numbers of buckets, all hash functions", ["include/hbmap.h: hbmap_foreach, hbmap_delete, hbmap_iter_index_valid"])
p("memory of lists of owned blocks", "A program that allocates the items of a tglist, frees those the list does not take and those it deletes, and ends with tglist_free_values and tglist_free has freed everything it allocated exactly once, whatever the order of the operations and whichever allocations fail. Without tglist_free_values exactly the items in the list stay allocated. The same holds for a tgilist if the program does not free what it deletes; an item that is deleted and freed is freed again by tgilist_free_values.", "every history and every pattern of failing allocations", "all histories and failures", ["include/tglist.h", "include/tgilist.h"])
p("memory of maps of owned blocks", "The same for maps whose keys and values are blocks the program owns: with bmap_insert_nocheck the number of entries is what the results say, and bmap_fini leaves exactly the keys (values) if bit 0 (1) of the flags is not set. The same holds for hbmap with any number of buckets.", "every history, comparison and hash function and every pattern of failing allocations", "all histories and failures", ["include/bmap.h", "include/hbmap.h"])
p("blocks lost by bmap_insert", "A program that relies on the result of bmap_insert to learn whether the map has taken over key and value loses two blocks for each insertion for which the keys grew and the values could not: bmap_insert returns an index, but the map has no such entry. Nothing else is lost.", "every history and every pattern of failing allocations", "all histories and failures", ["include/bmap.h: bmap_insert, bmap_insert_nocheck, bmap_fini"])
p("number of buckets", "hbmap_new makes a map if 16 + 80 * numbuckets can be represented in size_t (on LP64) and there is memory, returns NULL without memory, and otherwise writes behind the block it allocated.", "every number of buckets", "all 2^64 numbers", ["include/hbmap.h: hbmap_new, hbmap_init_impl, hbmap_struct_size_impl"])
p("tgilist with a signed index type", "A tgilist whose index type is a signed type of w bytes acts as a mathematical list for any history of at most 2^(8w-1) calls. From there on values are still added with success and counted, but they cannot be read or set: the access is before the block of values. For short, which the header suggests for up to 64K values, this is the value number 32769.", "every history, item size, index type and pattern of failing allocations", "all histories, index types and failures", ["include/tgilist.h: tgilist_get, tgilist_set, tgilist_add, tgilist_insert"])
p("the list types are interchangeable", "A program that appends, inserts, deletes, reads and asks for the size, with positions that exist, gets the same answers from sblist, tlist, tglist and tgilist: those of a mathematical list.", "every sequence of calls, item size, block size, index type, content of new memory and addresses malloc may return", "all sequences of calls; a test compares two of the types on random ones", ["tests/tlist_test.c", "src/sblist/sblist.c", "src/sblist/sblist_insert.c", "src/sblist/sblist_delete.c", "src/tlist/tlist.c", "include/tglist.h", "include/tgilist.h"])
p("the worst case of tlist", "The logarithmic performance the header of tlist promises is not guaranteed: for every n below 2^32 there are n positions, the same for every program and every run, such that after inserting n items at these positions the lookup of the first item makes n nested calls.", "every number of items, item size and content, and all addresses malloc may return", "all sizes; a stack overflow shows up only for the right positions", ["src/tlist/tlist.c: mrand, merge, split, getitem, tlist_insert, tlist_get"])
p("blind insertions make a multimap", "A bmap filled with bmap_insert_nocheck even when the key exists already is a bag of entries: every blind insertion adds an entry, bmap_insert overwrites one entry of its key if there is one, bmap_get gives the value of some entry with the key if there is one, a deletion removes one entry, so that a key is gone after exactly as many deletions as it has entries. Keys stay sorted and aligned with their values, whichever allocations fail.", "every history, key and value size, order, and pattern of failing allocations", "all histories and failures", ["include/bmap.h: bmap_insert_nocheck, bmap_insert, bmap_get, bmap_find, bmap_delete"])
p("maps with a broken comparison function", "If the comparison function of a bmap is not an order (as one that subtracts integers and overflows), no call on the map touches foreign memory or fails to end, provided bsearch returns an element of the array or NULL. Keys and values stay aligned, and a call adds only its own entry, changes the value of one entry or removes one entry: no other entry is lost or damaged.", "every function from pairs of keys to integers, every history and pattern of failing allocations", "all functions and histories", ["include/bmap.h", "include/tglist.h: tglist_insert_sorted"])
p("temporary directories of concurrent processes", "However many processes call mktempdir at the same time, in whatever order their calls of mkdir take place, with whatever random numbers and failures, and while others make directories: at every moment no two processes have got the same directory, every directory a process has got exists and did not exist before, and no process that failed or is still trying has left a directory behind.", "every number of processes, prefixes, random numbers and every schedule", "all schedules", ["src/filelib/mktempdir.c: mktempdir", "src/filelib/ulz_mkdtemp.c: ulz_mkdtemp"])
p("names of temporary directories are predictable", "mktempdir takes its names from rand without seeding it. Programs that have not called srand try the same names in the same order: the k-th of them that runs while the others keep their directories finds k names taken before it gets one. Whoever makes the directories with the names that come next keeps the call from returning.", "every sequence of random numbers, prefix and number of processes", "all sequences", ["src/filelib/mktempdir.c: mktempdir", "src/filelib/ulz_mkdtemp.c: ulz_mkdtemp"])
p("following a growing file", "If another program appends only whole lines that fit the buffer to a file, in any portions, while it is read with fileparser_readline, the reader gets exactly these lines, in order and each once, and -2 whenever it has read all that has been written, however appends and calls are interleaved.", "every sequence of appends and calls, every buffer size", "all interleavings", ["src/fileparser/fileparser_readline_userbuf.c: fileparser_readline_userbuf"])
p("unfinished lines of a growing file", "If a line is read before its line feed has been written, fileparser_readline delivers the unfinished line as if it were complete and later the rest of it as another line; and for every such call one byte is skipped behind the next line feed: a line written and read in k + 1 portions costs the first k bytes of what follows it.", "every sequence of appends and calls, every buffer size", "all interleavings", ["src/fileparser/fileparser_readline_userbuf.c: fileparser_readline_userbuf"])
p("crash points of saving to a file", "If the process dies while stringptr_tofile or stringptrlist_tofile saves to a file, or somebody reads the file in between, the file has its old content, as long as it has not been opened, or exactly a leading part of the new content, never anything else. But the old content is gone before the new one is there: unless one of them is empty there is a moment at which the file holds neither.", "every old and new content, every sequence of partial transfers, every crash point", "all crash points", ["src/stringptr/stringptr_tofile.c: stringptr_tofile", "src/stringptrlist/stringptrlist_tofile.c: stringptrlist_tofile"])
p("saving to one file from several processes", "When several processes save texts to the same file at the same time with stringptr_tofile, every byte of the file is one that one of the texts has at that place, or a zero byte, and the file is never longer than the longest text. Processes that save the same text leave exactly that text. With different texts the file can end up as a mixture: the first portions of 64 KiB of one text and the rest of the other, or a shorter text, a hole of zero bytes and the rest of the longer.", "every number of processes, all texts, every interleaving of their calls and every size of the transfers", "all schedules", ["src/stringptr/stringptr_tofile.c: stringptr_tofile"])
p("counters and debugging of the single size allocator", "After every history of allocations and frees the pool's avail is the number of elements that are free, top is one more than the number of the highest element in use, and the bits of used mark exactly the elements in use. Compiled with DEBUG, SSFREE aborts the program exactly when its argument is not the address of an element in use (a double free, for instance), and does the same as without DEBUG otherwise. The program tests/ssalloc_test.c passes all its assertions whatever numbers rand delivers.", "every history, every pointer, every sequence of random numbers", "all histories; the test tries one sequence per second", ["include/ssalloc.c: ssa_alloc, ssa_free", "tests/ssalloc_test.c: main"])
p("several processes at the same time", "A process started with process_open also inherits the caller's ends of the pipes of all processes that are open at that moment. So if the programs run until the end of their input, process_close for one of them returns exactly if every process that was opened later has been closed before; otherwise it waits for ever. Closing in the opposite order of opening always works, does not disturb the other processes, and when all are closed the caller's descriptors are as at the start.", "every number of processes, every history of process_open (with every failure) and process_close", "all histories", ["src/proclib/process.c: process_open, process_close"])
p("Initialising the CRC tables can be repeated and raced", "Initialising the CRC tables any number of times, also while other threads do so in any interleaving, is harmless: as soon as one call has returned, every CRC computed by any thread is right, even while other calls are still running. A CRC computed before any call has returned is wrong in general: a byte is processed wrongly exactly if its table entry has not been stored yet by any thread (and is not entry 0), and a null pointer is followed if nothing has been stored.", "every number of threads, every interleaving of their stores, every moment, state and input byte", "the outcome depends on the interleaving; a test runs one", ["src/crc32/crc32_impl.c:InitTables", "src/crc32/crc32_impl.c:Update", "include/crc32.h"])
p("converting within one buffer", "The converting functions may be used with source and destination in the same buffer within these limits, and then do exactly what they do with separate buffers: base64dec if the destination begins at most one byte behind the begin of the text (so decoding in place works), hex2raw if it does not begin behind it, rc4 likewise, base64enc if the source begins at least (count-1)/3 bytes behind the destination and raw2hex if it begins at least len bytes behind it. In particular a base64 or hex text can be decoded where it is, and bytes at the end of a buffer of exactly the size of their text can be converted to the begin of the buffer.", "all contents of the buffer, all offsets and lengths within the limits, all keys", "the tests use separate buffers; the claim is about every offset and every length", ["src/strlib/base64dec.c:base64dec", "src/strlib/base64enc.c:base64enc", "src/strlib/hex2raw.c:hex2raw", "src/strlib/raw2hex.c:raw2hex", "src/strlib/rc4.c:rc4"])
p("limits of converting within one buffer", "One byte beyond the limits for converting within one buffer the results are wrong. rc4 with a destination that begins d bytes behind the source (and before its end) encrypts some bytes twice: the result is right exactly if every byte of the source happens to be the encryption of the byte d places before it.", "all buffers, keys, lengths and distances (rc4); one witness per function for the other limits", "the exact set of inputs for which it works is infinite", ["src/strlib/rc4.c:rc4", "src/strlib/base64dec.c:base64dec", "src/strlib/raw2hex.c:raw2hex"])
p("keys that rc4 cannot tell apart", "rc4 uses the key only through the first 256 bytes of its endless repetition. Two keys that agree there encrypt every text alike: what follows byte 256 of a key is ignored, and a key repeated is the same key.", "all pairs of keys, all texts, lengths and destinations", "a test tries some keys; the claim is about all pairs", ["src/strlib/rc4.c:rc4"])
p("CipherSaber messages are decrypted", "The CipherSaber functions built on rc4 give back the text of every message: for every text, every ten random bytes, every key of fewer than 256 characters and every number of rounds. They abort exactly for messages of fewer than ten bytes and keys of 256 characters or more. One round is plain rc4. But keys of more than 246 characters are accepted although then not all random bytes have influence: with l characters only the first 256-l of them, so that messages with different random bytes share a keystream; and with zero rounds the key has no influence.", "all texts, random bytes, keys, numbers of rounds", "the test decrypts two published messages", ["tests/rc4_test.c:rc4_n", "tests/rc4_test.c:ciphersaber_1_dec", "tests/rc4_test.c:ciphersaber_2_dec", "src/strlib/rc4.c:rc4"])
p("argument of the rc4 test program", "The rc4 test program called with an argument prints the encrypted argument and passes its assertions exactly if the argument has fewer than 2048 characters; with a longer one it writes outside its array.", "all arguments, all initial contents of the arrays", "infinitely many arguments; overflowing a buffer by one byte is usually not noticed", ["tests/rc4_test.c:main"])
p("The one-call SHA-512 and the self-test", "The one-call hash function writes the SHA-512 digest of every message and exactly 64 bytes. It agrees with the incremental interface fed at once and fed in blocks of 128, so that the self-test program prints nothing and exits with status 0 whatever random bytes it draws.", "all messages below 2^64 bytes, all sequences of random bytes, all initial contents of the arrays", "The self-test draws one random message per run; it samples what the theorem covers.", ["src/sha512/sha512.c:crypto_hash", "tests/sha512_test.c:test", "tests/sha512_test.c:sha512_to_str", "tests/sha512_test.c:main"])
p("Hashing a file with partial reads", "Hashing a file prints the SHA-512 digest of its content if every read but the last delivers a multiple of 128 bytes. With other short reads, as from pipes, different files get the same digest. A failing read is reported and nothing is printed. An empty or unreadable file makes the program dereference a null pointer.", "all files, all sequences of answers of read, all contents of the buffers", "Regular files on a quiet system are read in full blocks: tests do not see short or failing reads.", ["tests/sha512_test.c:sha512_hash", "tests/sha512_test.c:test_file", "src/sha512/sha512.c:sha512_update", "src/stringptr/stringptr_fromfile.c:stringptr_fromfile"])
p("lists over existing memory", "A list made from existing memory and given a block size behaves like a list that starts with the items in that memory, under every sequence of calls and allocation failures. Without a block size this holds for all calls that do not add items.", "all memory contents and sizes, item and block sizes, sequences of calls, patterns of allocation failures", "The interplay of left-over bytes, growth and failed allocations has unboundedly many histories.", ["src/sblist/sblist_new_from_data.c:sblist_new_from_data", "include/sblist.h:sblist_set_blockitems", "src/sblist/sblist.c:sblist_grow_if_needed"])
p("memory of lists over existing memory", "If the memory is shorter than one item and no block size was set, a failed attempt to add an item leaves the list with a dangling pointer on systems where realloc to 0 bytes frees; the next attempt or freeing the list is undefined. Freeing a list over memory that is not the allocator's is undefined; otherwise it gives back exactly the memory and the list object.", "all heaps, sizes and addresses", "Depends on the realloc of the platform and on sizes tests do not use.", ["src/sblist/sblist_new_from_data.c:sblist_new_from_data", "src/sblist/sblist.c:sblist_grow_if_needed", "src/sblist/sblist.c:sblist_free"])
p("going through all sections of a name", "The test program that goes through the sections of one name until it gets a section with no lines prints the value of every such section if each of them has an entry; after a section without entries nothing more is printed. It terminates and stays within the text of the file. If the file is missing or empty it dereferences NULL.", "all texts of the file, all files of sections and entries, all memory behind the text", "Texts and numbers of sections are unbounded; the shipped file has no empty section.", ["tests/iniparser_test_nextsection.c:main", "src/iniparser/iniparser.c:iniparser_get_next_section", "src/iniparser/iniparser.c:iniparser_getvalue", "src/stringptrlist/stringptr_splitc.c:stringptr_splitc"])
p("treap list at the limit of its counters", "A list of 2^32 - 1 items accepts another item at every index, reports success and stores it in its place, but answers afterwards that its size is 0: deletions are refused, and freeing the items leaves all of them allocated. Lists of every smaller size exist and answer their size.", "all lists of 2^32 - 1 items, all indices, items and addresses", "No test can build lists of 4 billion items.", ["src/tlist/tlist.c:tlist_insert", "src/tlist/tlist.c:upd_cnt", "src/tlist/tlist.c:tlist_getsize", "src/tlist/tlist.c:tlist_free_items", "src/tlist/tlist.c:tlist_delete_impl"])
p("looping over a list", "A loop with sblist_iter and its variants goes through all items in order, with the pointer at each; after the loop the pointer is NULL if the loop was not left with break, and else the item at which it was left. A loop that deletes some items and decreases the loop variable after each deletion handles each item once and deletes exactly those, with the signed variable of sblist_iter_counter2s, with an unsigned one, and with tglist_foreach. If the loop variable is not decreased, items that should go stay in the list exactly if two neighbours should both go.", "all lists, tests of items and loop bodies that search or delete", "Lists and tests are unbounded in number.", ["include/sblist.h:sblist_iter_counter, sblist_iter_counter2, sblist_iter_counter2s, sblist_iter", "include/tglist.h:tglist_foreach", "src/sblist/sblist_delete.c:sblist_delete"])
p("a list as its own work list", "A loop with sblist_iter whose body appends items to the same list goes through the appended items too: if items make finitely many generations of others, the loop ends, and the list then holds all generations one after the other.", "all lists and all ways to make items from an item, with finitely many generations", "All ways to make items, numbers of generations are unbounded.", ["include/sblist.h:sblist_iter_counter", "src/sblist/sblist.c:sblist_add"])
p("a hash function that disagrees with the comparison", "For any hash function, an hbmap under any sequence of insertions, lookups and deletions is memory safe and behaves as a map in which two keys are the same key exactly if they compare equal and their hash values agree modulo the number of buckets. With one bucket it is the map given by the comparison alone, whatever the hash. Of two keys that compare equal but fall into different buckets both are stored, neither is found under the other, and iteration visits both.", "all hash functions, comparisons, numbers of buckets, operation sequences and allocation failures", "Hash functions and operation sequences are infinite in number.", ["include/hbmap.h:hbmap_insert, hbmap_find, hbmap_get, hbmap_delete, hbmap_foreach", "include/bmap.h:bmap_insert, bmap_find, bmap_delete"])
p("normalizing a path in place", "normalizepath_cstr(path, path), or with an output that begins before the path in the same buffer, gives the same answer and the same normal form as with a separate buffer, and writes nothing outside the bytes from the output to the end of the path. If it fails, the path may have been changed. With an output that begins inside the path, a path made of one plain name makes it write past the end of any buffer.", "all paths, contents of the buffer, and positions of the output", "Paths and positions are unbounded in number.", ["src/filelib/normalizepath_cstr.c:normalizepath_cstr"])
p("the example programs for reading lines and saving a text", "The program that prints a file with fileparser_readline prints, for every regular file, its lines, each up to its first NUL and followed by a line feed, up to the first line of 1024 or more bytes, where it stops; so it copies a file of short lines without NUL and adds a line feed that is missing at the end. Whatever the system answers it ends without undefined behaviour. It prints nothing if the file cannot be opened, if its descriptor is 0, or if it is a pipe whose first delivery holds a line feed. The program that saves a text leaves exactly this text in the file, whatever was there before, if no write fails.", "all file contents, descriptors, contents of uninitialised memory, and answers of the system", "Files and histories of partial reads are unbounded in number.", ["examples/fileparser_test.c:main", "examples/stringptr_test1.c:main", "src/fileparser/fileparser_readline.c:fileparser_readline", "src/stringptr/stringptr_tofile.c:stringptr_tofile"])
p("maps with strings as keys", "A bmap with keys of type char* and a comparison function that compares the strings behaves as a map from strings to values, whatever happens to the memory between the calls, as long as the strings of the keys that are in the map stay as they are; the buffer used to look up, delete or overwrite may be reused. If the string of a key in the map changes, its entry is lost under the old string. Inserting any strings through one buffer without copying them leaves a map with one entry.", "all histories of calls and of memory contents, allocation failures, and implementations of bsearch", "Histories of the memory between calls are unbounded.", ["include/bmap.h:bmap_insert", "include/bmap.h:bmap_get", "tests/bmap_bench.c:strstrcmp"])
p("benchmark programs", "The functions timed by the bmap and hbmap benchmarks store the numerals of 0 to N-1 and find every one of them again, whatever rand() returns: no assertion fails and the result is the sum of the numbers looked up, if it fits in an int. With the constants of bmap_bench.c it always does; with those of hbmap_bench.c it does not as soon as rand()%1000000 is 214749 or more on average. When they return, all memory is freed except one copy of the string 0.", "all numbers of items, lookups and buckets, all values of rand(), addresses and memory contents, and implementations of bsearch", "A run shows one sequence of rand() values and an overflow may go unnoticed.", ["tests/bmap_bench.c:test_bmap", "tests/hbmap_bench.c:test_bmap", "include/hbmap.h:hbmap_insert_nocheck", "include/hbmap.h:hbmap_fini"])
p("process_open needs standard descriptors", "On a POSIX system that refuses nothing, process_open succeeds exactly if descriptors 0, 1 and 2 are all open in the caller: if one of them is closed, the first pipe takes its place and the child closes it before use. After daemonize, processes can be started exactly if /dev/null could be opened.", "all descriptor tables and all answers of the system", "Tests run with the standard descriptors open.", ["src/proclib/process.c:process_open", "src/proclib/daemonize.c:daemonize"])
p("Reading numbers from arbitrary text", "strtoint64 and strtoint are total on texts of up to 17 characters behind an optional minus sign, whatever the characters: each counts as a digit worth its distance from '0'. Texts of 19 and more characters are always undefined behaviour, with 18 an exact condition decides; strtoint reduces the value modulo 2^32, and negating -2^31 is undefined. Every text accepted by isnumericipv4 is converted by ipv4fromstring without undefined behaviour to the values of its four parts modulo 256.", "all texts of any length with any bytes", "Only a few well-formed numbers can be tried.", ["src/strlib/strtoint64.c:strtoint64", "src/strlib/strtoint.c:strtoint", "src/strlib/isnumericipv4.c:isnumericipv4", "src/strlib/ipv4fromstring.c:ipv4fromstring"])
p("Output stays within the size given", "base64dec, base64enc_str and fileparser_readline_userbuf leave every byte behind the given size as it was, and what they store and return does not depend on it, also when they fail. normalizepath_cstr (both versions) uses at most strlen(path)+1 bytes of the output, also when it refuses the path, but then leaves parts of it there. base64dec counts characters in an int: that overflows for a text of 2^31 symbols with a destination of 3*(2^29-1) bytes or more, and with any smaller destination such texts are refused.", "all texts, files, buffers and bytes behind the buffers", "Tests use buffers of exactly the given size, and no texts of 2 GB.", ["src/strlib/base64dec.c:base64dec", "src/strlib/base64enc_str.c:base64enc_str", "src/fileparser/fileparser_readline_userbuf.c:fileparser_readline_userbuf", "src/filelib/normalizepath_cstr.c:normalizepath_cstr"])
p("hbmap with strings as keys", "An hbmap whose keys are pointers to strings, with a comparison and a hash function that follow them, behaves as a map from strings for any number of buckets and any hash function, as long as the strings of the keys that are in the map do not change; other memory, including the buffer a lookup passes, may. A key string that changes makes its entry unreachable under the old string, and under the new one exactly if the two belong to different buckets. Inserting strings through one buffer leaves one entry per bucket met, holding the value last inserted for that bucket.", "all hash functions, numbers of buckets, histories of calls, contents of memory and allocation failures", "A test uses strings that do not change and one hash function.", ["include/hbmap.h:hbmap_insert", "include/hbmap.h:hbmap_find", "include/hbmap.h:hbmap_get", "include/hbmap.h:hbmap_delete", "tests/hbmap_bench.c:strstrcmp"])
p("integer keys compared by subtraction", "The comparison of the tests and examples, `return *a - *b`, is defined exactly if the difference is an int. A bmap with int keys and this comparison behaves as a map from integers, with no undefined comparison, under every history in which no two keys differ by more than 2^31-1; sorted insertion into a tglist of ints keeps it sorted. Inserting an int that far from the middle element of the list is undefined; with wrapping arithmetic it lands on the wrong side, exactly in that case for a second element, and three ints may have no sorted arrangement at all. The integer test of the bmap benchmark finds every item for any number of items up to 2^31.", "all ints, histories of calls, lists and allocation failures", "Tests use small non-negative ints.", ["tests/bmap_bench.c:intcmp", "tests/bmap_bench.c:test_bmap_int", "tests/tglist_insert_test.c:intcmp", "include/bmap.h:bmap_find", "include/tglist.h:tglist_insert_sorted_impl"])
p("reading standard input line by line", "A loop that calls read_stdin_line until it returns NULL ends for every input and gets, for any buffer of 2 to 2^31-1 bytes, exactly the pieces of at most bufsize-1 characters that end with a newline where there is one, each up to its first zero byte and, with chomp, without the last byte of that. Without chomp nothing of an input without zero bytes is lost; with chomp one gets the lines of the input exactly if it ends with a newline and every line fits with newline and terminator. With a buffer of one byte the loop never ends; with a size that is not a positive int every input looks empty.", "all inputs, buffers and buffer sizes", "A test reads a few short lines.", ["src/stringptr/read_stdin_line.c:read_stdin_line", "src/stringptr/stringptr_shiftleft.c:stringptr_shiftleft", "src/stringptr/stringptr_fromchar.c:stringptr_fromchar"])
p("cost of searching, sorted insertion and growth", "sblist_bsearch(_r), sblist_insert_sorted(_r) and tglist_insert_sorted end for every comparison function, even one that has a state and contradicts itself; they compare only with items of the list, at most floor(log2 n) + 1 times for n items, and this bound is reached. Over any history of calls a list's buffer is the smallest its growth policy offers for the largest number of items it ever had: an sblist goes through buffers of 1, 2, ..., m blocks (in total m(m+1)/2 blocks), a tglist through 4, 8, 16, ... items, in total less than four times that largest number; deleting gives no memory back.", "all lists, items, comparison functions with state, and call histories", "A test uses a comparison that is an order, does not count its calls and looks at no buffer sizes.", ["src/sblist/sblist_bsearch.c:sblist_bsearch", "src/sblist/sblist_bsearch_r.c:sblist_bsearch_r", "src/sblist/sblist_insert_sorted_r.c:sblist_insert_sorted_r", "src/sblist/sblist_insert_sorted.c:sblist_insert_sorted", "src/sblist/sblist.c:sblist_grow_if_needed", "include/tglist.h:tglist_insert_sorted", "include/tglist.h:tglist_grow_if_needed"])
p("macro arguments with side effects", "bmap_insert(m, KEY, VAL) evaluates KEY once if the first key is in the map; otherwise twice, and inserts the second without looking for it: the first key is then in the map only if both are equal, and a second key that was there gets a second entry. The loop inserting keys[i++] with vals[j++] over n different keys inserts every second key only, with the wrong values, and reads behind the array if n is odd. bmap_delete(m, i++) keeps entry i, drops key i+1 and shifts a value to the wrong key, or reads behind the arrays. hbmap_insert evaluates KEY four times and may leave a key in a bucket where no search finds it. MIN and MAX return a second evaluation. tglist_add evaluates the item exactly once, or not at all if memory is refused. bmap_fini(m, a | b) frees keys and values as soon as a is not zero, and bmap_fini(m, x ? a : b) frees both or none if x is true, unless the argument is in parentheses.", "all maps, lists, keys, values, flags and argument expressions with any state", "A test passes variables and literals as arguments.", ["include/bmap.h:bmap_insert", "include/bmap.h:bmap_delete", "include/bmap.h:bmap_fini", "include/hbmap.h:hbmap_insert", "include/tglist.h:tglist_add", "include/macros.h:MIN", "include/macros.h:MAX"])
p("the room normalizing takes", "normalizepath works for paths of any length as long as the intermediate result (components are written first and taken back at '..') and the final result with its terminator fit into PATH_MAX bytes; otherwise it writes behind its local buffer, also for a path such as /name/.. whose normal form is '/'. normalizepath_cstr is right with an output buffer of exactly that many bytes and writes behind any smaller one. The room is at most strlen(path)+1 bytes and at least that of the result. getpathdiff, which normalizes both of its paths, is right exactly if both fit and the work buffer has room for the difference and a terminator.", "all paths, buffers and buffer sizes", "Tests use short paths and large buffers.", ["src/filelib/normalizepath.c:normalizepath", "src/filelib/normalizepath_cstr.c:normalizepath_cstr","src/filelib/getpathdiff.c:getpathdiff"])
p("the treap list is balanced on average", "After every history of calls on a tlist, the number of nested calls of a lookup or insertion is determined by the priorities of the items present: the items on the way to the place. The priorities, from a generator with a fixed seed, repeat with period exactly 2^31, so up to that many insertions get different ones. Averaged over all n! index sequences that insert n items one after the other, a lookup of item i makes exactly H(i+1)+H(n-i)-1 nested calls, an insertion at g makes H(g)+H(n-g)+1, and H(i)+H(n-1-i)+2 are enough for a deletion (H harmonic numbers); all are at most 2 log2 n + 4.", "all histories of calls, all n up to 2^31, all indices, all placements by malloc", "The average ranges over n! call sequences for every n; tests run one sequence and do not measure depth.", ["src/tlist/tlist.c:mrand", "src/tlist/tlist.c:merge", "src/tlist/tlist.c:split", "src/tlist/tlist.c:getitem", "src/tlist/tlist.c:insert", "src/tlist/tlist.c:remove", "src/tlist/tlist.c:tlist_get", "src/tlist/tlist.c:tlist_insert", "src/tlist/tlist.c:tlist_delete"])
p("how long pointers to items stay good", "A pointer to item i of an sblist or tglist, kept over any history of calls, may be used exactly until the list first gets more items than its buffer had room for when the pointer was taken (for a new sblist with blocks of b items: the most items so far, rounded up to a multiple of b). Until then it reads and writes the item that is at index i at that time, not the item it was taken for, and if there is none it shows the last item that was there; the pointer from sblist_pop shows the popped item until a call adds an item again. A pointer from tlist_get belongs to the item: however the list changes, it shows the same bytes and tlist_get returns it for the item's new index, until the item is deleted.", "all histories of calls with all allocation failures, all indices, all item and block sizes", "Whether memory is reallocated depends on the whole history and on the allocator; a test that uses a stale pointer usually reads plausible data.", ["src/sblist/sblist.c:sblist_get", "src/sblist/sblist.c:sblist_grow_if_needed", "src/sblist/sblist_insert.c:sblist_insert", "src/sblist/sblist_delete.c:sblist_delete", "src/sblist/sblist_pop.c:sblist_pop", "include/tglist.h:tglist_get", "include/tglist.h:tglist_grow_if_needed", "src/tlist/tlist.c:tlist_get", "src/tlist/tlist.c:tlist_insert", "src/tlist/tlist.c:tlist_delete"])
p("how long pointers to values of maps stay good", "A pointer from bmap_get, kept over any history of calls, may be used exactly until the map first has more entries than its values had room for when the pointer was taken. Until then it shows not the value of its key but that of whatever key has as many smaller keys as its key had; so it is the key's value, and what bmap_get returns, while no smaller key is inserted or deleted and the key is not deleted. The same holds for hbmap_get, where only keys of the same bucket matter. With BMAP_USE_TGILIST, and for pointers to items of a tgilist, the pointer belongs to the entry: it shows its value and every update of it wherever it moves, and after its deletion for ever the last one, until all entries ever added no longer fit into the array; a write through it is an update.", "all histories of calls with all allocation failures, all keys, all comparison and hash functions, all sizes", "Which value a stale pointer shows depends on the whole history of the map; in a test that inserts keys in increasing order it happens to be the right one.", ["include/bmap.h:bmap_get", "include/bmap.h:bmap_insert", "include/bmap.h:bmap_delete", "include/hbmap.h:hbmap_get", "include/hbmap.h:hbmap_insert", "include/hbmap.h:hbmap_delete", "include/tgilist.h:tgilist_get", "include/tgilist.h:tgilist_insert", "include/tgilist.h:tgilist_delete", "include/tglist.h:tglist_grow_if_needed"])
p("looking up keys in one map from several threads", "bmap_find, bmap_contains and bmap_get write into the map. Threads that look up keys in a bmap nobody changes get the right answers under every schedule exactly if the map is empty, or no two calls of different threads include a bmap_get or have different answers; otherwise some schedule gives one thread the answer for the key of the other, or reads foreign memory. For hbmap_find and hbmap_get: exactly if all these calls find one and the same entry, the first of its bucket; for hbmap_contains: exactly if the keys are all present and in one bucket. Calls that do not overlap are always right.", "all schedules of all numbers of threads, all their calls, all maps reached by any history, all comparison and hash functions", "The wrong answers need a switch between two particular instructions; and a lookup looks like something that only reads.", ["include/bmap.h:bmap_find", "include/bmap.h:bmap_contains", "include/bmap.h:bmap_get", "include/hbmap.h:hbmap_find", "include/hbmap.h:hbmap_contains", "include/hbmap.h:hbmap_get"])
p("what the CRC does not notice", "A CRC is no protection against intent: whatever precedes and follows, exactly one choice of four bytes gives a message any desired CRC; CRCs of messages of equal length can be computed from each other by xor; the CRC of a concatenation depends only on the CRCs of the parts and the length of the second. A change that keeps the length is unnoticed exactly if the difference is a multiple of the generator polynomial. Zero bytes added at the end are unnoticed exactly if the CRC is ff ff ff ff (for CRC-32C also 50 d2 5b 03) or their number is a multiple of 2^32-1 (2^31-1 for CRC-32C); zero bytes in front exactly in the latter case.", "all messages, all ways of cutting them into updates, all target values, all numbers of zeros", "Whether some change of some message goes unnoticed is a statement about all pairs of messages; the exceptional states and the periods are far out of reach of tests.", ["src/crc32/crc32_impl.c:InitTables, Init, Update, Final"])
p("digests can be continued without the data", "Whoever knows the MD5 or SHA-512 digest of some data and its length, but not the data, can fill a context from them and go on with further updates: the result is the digest of the data, its padding and the further data. So a digest of a secret followed by a message does not authenticate the message, and two messages of one length with equal digests give equal digests with any common continuation.", "all data, lengths, further updates, contents of uninitialised memory", "It is a statement about all secrets; a test shows it for one.", ["src/md5/md5.c:md5_init, md5_update, md5_end", "include/md5.h:md5_ctx", "src/sha512/sha512.c:sha512_init, sha512_update, sha512_end", "include/sha512.h:sha512_ctx"])
p("threads that share the single size allocator", "The pool of the single size allocator is one static object without a lock. Whenever an allocation can succeed, two threads that allocate at the same time can be given the same block; if it is the last block, both can be given the memory behind the pool (or the code reads behind its bitmap); two threads that free two blocks can free only one of them. If calls do not overlap, the threads together see one sequential history. Threads that only allocate from a fresh pool get different blocks for every order of their steps exactly if at most one of them makes allocations that fit a block.", "all pool sizes and block sizes, all histories before, all programs of all threads, all interleavings", "Interleavings cannot be enumerated by tests, and the bad ones are rare.", ["include/ssalloc.c:SSA_POOL, ssa_alloc, ssa_set, ssa_free, ssa_init", "include/bitarray.h:BA_GET, BA_SET_TRUE, BA_SET_FALSE"])
p("the texts of the same data", "base64dec decodes several texts to the same data: exactly those that differ from the text of base64enc in the unused bits of the last symbol, which are one, four or sixteen texts, depending on the length of the data modulo three. The documented zero behind the decoded data is there exactly if the text is the one that base64enc makes of the data; otherwise an unused non-zero byte follows. Encoding in two pieces gives the text of the whole exactly if the first has a multiple of three bytes or the second is empty; two texts one after the other are accepted exactly if the data of the first has a multiple of three bytes, and then give both data.", "all data, all texts, all destination sizes", "The set of all texts of given data, and that no other text is accepted, cannot be enumerated by tests.", ["src/strlib/base64dec.c:base64dec", "src/strlib/base64enc.c:base64enc", "include/strlib.h:BASE64DEC_BUFSIZE, base64dec"])
p("texts with the same hash", "stringptr_hash can be steered: texts with the same hash keep it when the same is appended; anywhere in a text two adjacent bytes can be replaced by others without changing the hash; whatever stands before and after, there are 2^n different texts of 2n letters with the same hash; each of the 2^28 values is the hash of exactly one text of seven of the letters @ to O. So for every number of buckets, a hash list that is filled with texts from elsewhere can end up with all values in one bucket.", "all texts, all numbers of buckets, both widths of uint_fast32_t", "A family of exponentially many texts and a bijection onto 2^28 values are beyond testing.", ["src/stringptr/stringptr_hash.c:stringptr_hash", "src/hashlist/hashlist.c:hashlist_add, hashlist_get"])
p("threads that share an sblist", "Threads may use one sblist without a lock as long as no thread sets an item that another one uses, at most one thread adds, the others stay away from the added items and the block has room for all of them: then every order of steps is defined and every thread gets what it would get alone. Calls that do not overlap are safe without these conditions and make one history. Otherwise, two threads that add at the same time can lose an item that was reported as stored, write behind the block, or hand a freed block to realloc; one that looks while another one adds can read a freed block, or get an item before it is stored; one that looks while another one sets can get a mixture.", "all lists, item sizes, programs, numbers of threads and orders of steps; any allocator", "The schedules are unbounded in number and length, and a test sees one of them.", ["src/sblist/sblist.c:sblist_add, sblist_grow_if_needed, sblist_set, sblist_get, sblist_item_from_index", "include/sblist.h:sblist"])
p("what rc4 does not hide", "Encrypting two messages with the same key shows the difference of the texts. Changing bits of an encrypted message changes the same bits of the text and no others, unnoticed. Every call starts the key stream again: a message encrypted in two calls is the message encrypted in one call exactly if the key stream repeats at the cut. The key stream of every key repeats itself from its start after some number of bytes. A key whose schedule leaves 0 at index 2 and not 2 at index 1 leaves the second byte of every message as it is.", "all keys, messages and changes", "They speak about all messages under all keys, and a period that is far too long to run through.", ["src/strlib/rc4.c:rc4"])
p("growing a stringptr", "After stringptr_grow the text of a non-empty stringptr can be read exactly if the block was not moved and the given size, which includes the 16 bytes of the structure, leaves room for it. Once the block was moved, every later access to the text is an error, however often it is grown again, until the program sets the text pointer itself. A failed call changes nothing. Byte i of the text can be written exactly if 16 + i, plus the bytes cut off by stringptr_shiftright, is less than the given size. Whatever was done, stringptr_free gives back the block, leaves all others, and does nothing when repeated on the same variable.", "all texts, sizes, results of realloc and histories of calls", "Whether realloc moves the block depends on the heap; in tests it usually does not.", ["include/stringptr.h:stringptr_grow", "include/stringptr.h:stringptr_free", "src/stringptr/stringptr_new.c:stringptr_new", "src/stringptr/stringptr_shiftright.c:stringptr_shiftright"])
p("sizes that do not fit", "If memory is granted, stringptr_concat, stringptrlist_tostring, stringptrlist_tostring_dos and stringptr_replace are free of errors exactly if the result with its header and terminator takes less than 2^64 bytes; otherwise they write outside the result. Adding items to an sblist is free of errors exactly as long as the items fit into the size of the buffer computed modulo 2^64, although the list believes that it has room for more. A tglist with a buffer of at most 2^62 bytes and items of at most 2^60 has no such limit.", "all texts, lists, item sizes and block sizes", "The limits are reached with sizes no test can allocate, though the wrapped requests are small.", ["src/stringptr/stringptr_concat.c:stringptr_concat", "src/stringptrlist/stringptrlist_tostring.c:stringptrlist_tostring", "src/stringptrlist/stringptr_replace.c:stringptr_replace", "src/sblist/sblist.c:sblist_grow_if_needed", "include/tglist.h:tglist_grow_if_needed"])
p("threads that share a hashlist", "Threads that use one hashlist at the same time are safe if no two calls on the same bucket overlap, in particular without any lock if they use different buckets: all calls together are one history. Two threads that add the first item of the same bucket can lose one of the items and its memory although both are told that it was added, can lose it because the allocation of the other one fails, and can dereference NULL. On a bucket that exists they can do what threads on one sblist can do: lose an item, use a freed block.", "all hashlists, programs of threads, schedules and allocation failures", "The races need particular interleavings; the safety claim ranges over all schedules.", ["src/hashlist/hashlist.c:hashlist_add", "src/hashlist/hashlist.c:hashlist_get", "src/sblist/sblist.c:sblist_add"])
p("threads that share a bit array", "Threads that use different bits of one bit array at the same time all get what they would get alone, under every schedule, exactly if no thread changes a bit in a byte in which another thread sets a bit (to whatever value). Threads on different bytes need no lock; two threads that switch on two bits of the same byte can lose one of them.", "all arrays, programs of threads and schedules", "The loss needs one particular interleaving; the safety claim ranges over all schedules.", ["include/bitarray.h:BA_SET", "include/bitarray.h:BA_SET_TRUE", "include/bitarray.h:BA_SET_FALSE", "include/bitarray.h:BA_GET"])
p("stress tests of the lists", "The stress programs that fill a list with numbered items and look at them again give the right verdict about the list for every item size, number of items, block size, random sequence and allocator: with fewer than 2^30 items and working memory for their own small blocks, the sblist program is defined and passes exactly if the list got all the memory it asked for, for the single test and for the series over all block sizes; the tglist program passes exactly then too, but may otherwise read outside of the list. With 2^30 items or a negative number the counters overflow, without memory for the small blocks NULL is dereferenced, and with the default block size and items of more than 4096 bytes the first addition writes outside of the list's memory.", "all data sizes, arguments, results of rand and of malloc/realloc", "A run of the test is one random sequence and one allocator; the claim is about all of them.", ["tests/sblist_test.c:test_single", "tests/sblist_test.c:test_each", "tests/tglist_test.c:test_single", "src/sblist/sblist.c:sblist_add", "include/tglist.h:tglist_add"])
p("lists of strings by reference", "Every history of a list of strings or a list of keys with values - adding, setting, inserting, inserting sorted, deleting, reading, searching, with any outcome of the allocations and any change of the memory in between - is a history of a mathematical list of entries (pointer, length, value). Entries are kept by reference: a search finds the first entry whose bytes in memory are equal to the wanted string at that moment, kv_find leaves the value alone if there is none, and an entry with the same key added later is not seen.", "all histories of calls and memory changes, all allocation failures, both kinds of list", "Histories, contents and allocation failures are unbounded; aliasing effects need particular orders of changes.", ["include/stringptrlist.h:stringptrlist_add", "include/stringptrlist.h:stringptrlist_set", "include/stringptrlist.h:stringptrlist_insert", "include/stringptrlist.h:stringptrlist_insert_sorted", "include/kvlist.h:kv_add", "include/kvlist.h:kv_set", "src/kvlist/kvlist.c:kv_find", "src/stringptrlist/stringptrlist_find.c:stringptrlist_find"])
p("using a hash context again", "No sequence of calls on a SHA-512 context is a memory error, whatever the context holds before. sha512_init makes any used context new: what follows gives the digest of the data since then. sha512_end uses the context up: called again it hashes the last one or two blocks of the padded message again, as often as it is called, and changes the bytes that earlier results point to; the second result for the empty message is not its digest. With MD5, in every sequence of calls every md5_end gives the digest of all the data since the last md5_init and does not disturb what follows.", "all sequences of init, update and end on one context, all data, all contents of the memory before", "The sequences of calls are unbounded and depend on everything the context has seen before.", ["src/sha512/sha512.c:sha512_init", "src/sha512/sha512.c:sha512_update", "src/sha512/sha512.c:sha512_end", "src/md5/md5.c:md5_init", "src/md5/md5.c:md5_update", "src/md5/md5.c:md5_end"])
p("working with the guarded allocator", "After any sequence of guard_alloc and guard_free all bytes of every allocation in use are accessible and followed by an inaccessible page, no page belongs to two of them, and exactly one page is left behind for each allocation given back whose size was a multiple of the page size. The address is aligned to a power of two exactly if the size is a multiple of it. Accesses before the start are not noticed within the rest of the first page, which is at least one byte. guard_free with another size gives back nothing if the sizes differ modulo the page size, and otherwise as many pages as the given size says, including those of others. What the test of the allocator expects holds for every page size of at least 128 bytes.", "all sequences of calls, all answers of the system, all sizes, all page sizes that are powers of two", "The sequences, sizes and places of the mappings are unbounded; leaks and neighbours show only in the memory map.", ["include/guard_alloc.c:guard_alloc", "include/guard_alloc.c:guard_free", "tests/guard_alloc_test.c:main"])
p("options with any names", "op_get is exact for every stringptr as name, also one with dashes or equals signs, a part of a longer string or an empty one: before an equals sign the characters of the stringptr count, otherwise the whole C string at its pointer, so with a part of a longer string `--out=x` is found, `--out x` is not, and `--output x` is taken for it; with the empty name the result can point behind the terminator. Contrary to the header, flags given together as in `-ltp` are not found: a flag of one character is set exactly if an argument is the dash and this character; and `arg=something` without a dash is never seen. A value that looks like an option is both.", "all argument vectors and all names", "The texts of arguments and names are unbounded; tests use names that are literals.", ["src/optparser/op_get.c:op_get", "src/optparser/op_hasflag.c:op_hasflag", "include/optparser.h:op_state"])
p("stopwatches and times of files", "gettimestamp and mspassed make a stopwatch: it shows the milliseconds between the two readings of the clock, rounded down, and is defined exactly while these fit a long; the sum of any number of laps is never more than the time spent in them and lacks less than a millisecond for each (three laps of 999 microseconds count for nothing); a loop that waits until mspassed reaches a limit ends at the first reading that is at least the limit later, never earlier; around a msleep that returned 0, interrupted or not, it shows at least the time asked for. getFileModTime gives the time of the file, and 0 both for a missing file and for one from the epoch; comparing two of its results is right for files that exist and counts a missing file as one from the epoch.", "all clocks and histories of readings, all interruptions, all times of files", "Clocks and interruptions cannot be chosen in a test, and a sum of laps is unbounded.", ["src/timelib/gettimestamp.c:gettimestamp", "src/timelib/mspassed.c:mspassed", "src/timelib/getutime.c:getutime", "src/timelib/msleep.c:msleep", "src/filelib/getfilemodtime.c:getFileModTime"])
p("alignment of items", "Whether memory that the containers hand out may be accessed as a type: items of an sblist, and so of a hashlist, kvlist or stringptrlist, are all aligned exactly if the buffer is and the item size is a multiple of the alignment (or there is just one); so are tglist items and with them keys and values of the maps; the text of a stringptr is aligned like its block. Items of a tlist are, on 64-bit platforms, always 8 bytes off a multiple of 16, so types with an alignment of 16 can never be stored in it without undefined accesses. All pointers of the single size allocator are aligned exactly if its pool is and the element size is a multiple; the pool is aligned for size_t only, and from a pool that is 8 bytes off a multiple of 16 no aligned block of 16 can ever be had.", "all alignments, item sizes and histories of calls", "Misaligned accesses mostly go unnoticed on the machine of the test, and where blocks lie differs from run to run.", ["src/sblist/sblist.c:sblist_get", "src/tlist/tlist.c:tlist_get, new_item, data", "include/ssalloc.c:ssa_alloc, ssa_pool", "include/tglist.h:tglist_get", "src/stringptr/stringptr_new.c:stringptr_new"])
p("adding to a hashlist while iterating", "A hashlist may be added to while it is iterated over: at any time the items returned are the first of those that were added while the iteration had not passed their bucket, bucket by bucket and in the order added, and all of them once NULL is returned. So what was there at the start is returned exactly once, nothing is returned more often than it was added, and after NULL only NULL comes, even if items are added. A loop that adds for every item it gets another one in the same or a later bucket never ends; one that adds in earlier buckets only ends after one round for each original item.", "all bucket counts, item sizes, hash functions and interleavings of adds and steps of the iterator", "Which of the new items are seen depends on the hash, the number of buckets and the moment of the add: a test sees a few interleavings.", ["src/hashlist/hashlist_iterator.c:hashlist_iterator_init, hashlist_next", "src/hashlist/hashlist.c:hashlist_add"])
p("settings of the single size allocator", "The single size allocator with other settings of its macros: the check that the number of elements is a power of two stops the compiler exactly for odd numbers. The type of the words searched depends on a macro that nothing defines (SSA_MAXLEN); with any word size all histories are defined and live elements never overlap, but an allocation may fail although an element is free exactly if the number of elements is neither a multiple of the bits of a word nor one more; with fewer elements than bits nothing is handed out again while the last element is live. The words read are aligned for every power of two, and otherwise exactly if the size of the memory is a multiple of the word size. With an element size that is a sum without parentheses elements overlap, the last one ends behind the pool, and none is ever given back.", "all numbers and sizes of elements, word sizes, addresses and histories of calls", "Each configuration is a different program: tests are compiled with one of them.", ["include/ssalloc.c:SSA_MAXELEM, SSA_ELEMSIZE, SSA_MAXLEN, SSA_COMPARETYPE, ssa_alloc, ssa_free, ssa_getaddr, ssa_getidx"])
p("four ways to read lines", "The library's ways of reading a text by lines do not agree: the line reader gives the lines of every file whose lines fit its buffer; reading the file whole and splitting it gives one more, empty, line exactly if it ends with a line feed; stringptrlist_fromfile gives the lines exactly if none is empty or has 1024 bytes or more; read_stdin_line with chomp gives the lines of a text without zero bytes exactly if it is empty or ends with a line feed and every line leaves two bytes of the buffer. For no text that is not empty do splitting and read_stdin_line give the same.", "all texts, buffer sizes and partial reads", "The differences show up at the last line, at empty lines and at lines about as long as a buffer: each text of a test settles one case.", ["src/fileparser/fileparser_readline_userbuf.c:fileparser_readline_userbuf", "src/stringptrlist/stringptrlist_fromfile.c:stringptrlist_fromfile", "src/stringptr/stringptr_fromfile.c:stringptr_fromfile", "src/stringptrlist/stringptr_splitc.c:stringptr_splitc", "src/stringptr/read_stdin_line.c:read_stdin_line"])
p("talking to a process", "A caller that writes a text to a copying process started with process_open and only then reads always comes to the end exactly if the text has at most one byte more than the two pipes hold, and can come to the end exactly if it has at most as many more as the process reads at once (or the first pipe holds, if less); longer texts leave both waiting for ever. A caller that reads whenever something is there always comes to the end. Reading standard output to its end before standard error ends exactly if all errors fit into the pipe. If some output was not read, process_close can return 0 for a process that would fail; it returns the exit code under every schedule exactly if all was read.", "all texts, pipe and buffer sizes, schedules and exit codes", "A deadlock shows only for texts longer than the pipes and, in between, only under some schedules; a test runs one schedule.", ["src/proclib/process.c:process_open, process_close", "include/proclib.h:struct process"])
p("reading a file while it is saved", "A process that calls stringptr_fromfile while another saves to the same file gets NULL, a part from the start of the new text, or the first q bytes of the old text followed by the new text from there up to the length of the old; every part, and every such mixture if the new text is long enough, can happen, with q a multiple of 64 KiB or all of the old text if no read is cut short. It can come into a state from which it never returns exactly if the new text is shorter than the old. Nothing is undefined.", "all texts and schedules of the system calls of both processes", "Which bytes are read depends on how the calls of two processes interleave; a test sees one order.", ["src/stringptr/stringptr_fromfile.c:stringptr_fromfile", "src/stringptr/stringptr_tofile.c:stringptr_tofile", "src/stringptrlist/stringptrlist_tofile.c:stringptrlist_tofile", "src/filelib/getfilesize.c:getfilesize"])
p("following a file that is replaced", "Whatever other programs do to a file, fileparser_readline gives what the file has behind the place where the reader is: changes before that place are never seen, and the result is -2 exactly if the file has no more bytes than that. So when a log that was read completely is truncated and written anew, its lines are not seen until it is longer than the old one, and reading then goes on in the middle of a line.", "all histories of changes and calls, all contents and buffers", "A test replaces a file once, at one moment; whether lines are lost depends on the lengths before and after.", ["src/fileparser/fileparser_readline_userbuf.c:fileparser_readline_userbuf", "src/fileparser/fileparser_readline.c:fileparser_readline", "src/fileparser/fileparser_getline.c:fileparser_getline", "src/fileparser/fileparser_open.c:fileparser_open"])
p("places outside a list", "tglist has no bounds checks, and the calls differ in what a place outside the list does. tglist_get and tglist_set are defined exactly below the capacity: behind the items they reach the slack, which is not part of the list, and an item deleted from the end can still be read there. tglist_delete is defined exactly at items. tglist_insert behind the end is undefined, except that it reports failure if the list is full and there is no memory.", "all lists, item sizes, places and allocation results", "A test at a place outside passes as long as it lies in the slack, which depends on the history of growth; for every place it is defined or not has to be proved.", ["include/tglist.h:tglist_get, tglist_set, tglist_delete, tglist_insert, tglist_memmove_impl, tglist_grow_if_needed"])
p("keys and tables of rc4", "The key schedule of rc4 makes of every non-empty key a table that has every byte value once, and every such table is made of some key of 256 bytes. There are fewer tables than keys: for every length from 211 bytes on there are two different keys of that length with which rc4 does the same to every message. And whatever the length of the keys, the tables are not equally likely: they do not all have the same number of keys.", "all keys, tables, key lengths and messages", "There are 256 to the power 256 keys; that two of them agree on every message, or that every table is reached, is a statement about all of them.", ["src/strlib/rc4.c:rc4"])
p("a sorted list as a table", "A program that searches with sblist_bsearch before it adds with sblist_insert_sorted, and deletes what it found, has a table: under each key at most one item is stored, the one that was added first and not removed since; a failed allocation changes nothing; and going through the list gives the stored items in strictly ascending order. If items are added with sblist_add instead, an item in the wrong place is not found, and can be stored a second time.", "all histories of adding, removing and finding, all comparison functions that are total preorders, all results of allocations", "The position of every search and insertion depends on the whole history; a test follows a few histories with one comparison function.", ["src/sblist/sblist_bsearch.c:sblist_bsearch", "src/sblist/sblist_insert_sorted.c:sblist_insert_sorted", "src/sblist/sblist_delete.c:sblist_delete", "src/sblist/sblist.c:sblist_get, sblist_add"])
p("questions and answers with a process", "A caller that writes a question to a process started with process_open, reads the whole answer, and goes on, comes to the end under every schedule if the process flushes its output after each answer, or if every answer fills the buffer of the process exactly; for the last answer it is enough to close fds[0] first. Otherwise it waits for ever under every schedule. What it reads is always the beginning of the answers in order. So the test program of process.c, which keeps fds[0] open, never ends with a process whose output is held in a buffer larger than the answer.", "all numbers of questions, answers, buffer and pipe sizes, and schedules", "Whether the process holds its answers back depends on the program started and on the lengths of all answers before; a deadlock under every schedule cannot be told from slowness by a test.", ["src/proclib/process.c:process_open, main"])
p("closing the input of a process oneself", "proclib has no function to end the input of a process, so a program that needs this closes fds[0] itself. process_close then closes that number again. If nothing was opened in between this does nothing; otherwise it closes exactly the file that got the number of fds[0] and leaves all others. A program that opens some files in between loses one exactly if they are more than the descriptors that were free below fds[0]: with only the standard descriptors open it is the second file. Setting fds[0] to -1 avoids this.", "all descriptor tables and all histories of opening and closing files", "Which file is lost depends on the whole descriptor table and on what other parts of the program open at the time.", ["src/proclib/process.c:process_open, process_close", "include/proclib.h:struct process"])
p("what a normalized path names", "Without symbolic links, whatever a path names is also named by what normalizepath makes of it, but not the other way round, as a missing directory can be left by '..'. With symbolic links this holds for exactly the paths without '..': for these the two name the same, except that a path with a slash or '/.' behind a file names nothing; and for every path with '..' there is a file system in which it and its normal form name different things. Absolute paths that climb above the root are refused although they name something.", "all absolute paths and all file systems of directories, files and links", "Tests run in one file system and with some paths; where the links are is up to the system that the program runs on.", ["src/filelib/normalizepath.c:normalizepath", "src/filelib/normalizepath_cstr.c:normalizepath_cstr", "include/filelib.h:normalizepath_cstr"])
p("keeping requests within a directory", "A program can use getpathdiff to find out whether a path lies below a directory: it accepts if the result is positive and the text starts with a slash. Without symbolic links and for paths that can be normalized this accepts exactly what lies below the directory. But getpathdiff does not notice that a path cannot be normalized: behind any directory but the root, enough '..' followed by any other path make a path that is accepted and names that other thing. And with symbolic links no path below a directory is safe, not even without '..'.", "all directories, requests and file systems", "The paths are chosen by an attacker, and tests do not cover all of them; the file system is that of the user.", ["src/filelib/getpathdiff.c:getpathdiff", "src/filelib/normalizepath.c:normalizepath"])
p("findword finds words", "Although strstr_uc can miss occurrences, findword does not miss words: if the word contains none of the characters that separate words, and stands somewhere in the text, findword returns that place or one in front of it. Of these words it is exactly those with at least two different characters for which the result is always the first place where the word stands, and NULL only if it stands nowhere. Words that contain separators can be missed.", "all texts and all words without separators", "The errors of the search depend on the interplay of text and word; a test can only show the absence of errors for some pairs.", ["src/strlib/findword.c:findword", "src/strlib/strstr_uc.c:strstr_uc"])
p("what can be read from a log", "A log that was written with log_put, one call per message, and is split into lines with the library gives back the messages exactly if none of them contains a newline; every newline in a message makes one more line, and whatever was logged, a single message with one string leaves the same file. With a separator between its arguments a line gives the arguments back exactly if none contains the separator. Without one, numbers run together: the line of two numbers is also that of two others.", "all lists of messages of any arguments", "Messages contain texts from outside; whether a log can be trusted is a statement about all of them.", ["src/logger/log_put.c:log_put", "src/stringptrlist/stringptr_splitc.c:stringptr_splitc", "include/vario.h:VARIS, VARIU"])
p("data of any bytes in text files", "Data written as base64 text with a separator between them and split again with the library come back from base64dec, called on the pointers of the pieces as they are, for every separator that is not one of the 65 characters of base64 text; each of the 65 occurs in the text of some data, and every occurrence of the separator in a text makes one more piece. An INI file with base64 values gives back every data, decoded from the pointer that the lookup returned, whatever bytes the data contain.", "all lists of data, all INI files, all separators", "Data from outside may contain any bytes; that none breaks the file is a statement about all of them.", ["src/strlib/base64enc.c:base64enc", "src/strlib/base64dec.c:base64dec", "src/stringptrlist/stringptr_splitc.c:stringptr_splitc", "src/iniparser/iniparser.c:iniparser_getvalue"])
p("the order of time stamps", "Time stamps of the years 0 to 9999 sort (as texts, byte by byte) exactly like the calendar times they show, so that sorted lines of a log are in the order of time, and two of them are the same exactly if the times are. In general two times have the same stamp exactly if they agree but for multiples of 10000 years on the same side of the year 0. From the year 10000 on stamps sort before earlier ones, and before the year 0 the years sort backwards. A buffer of 11 bytes gets the date: the same text exactly for times on the same day.", "all pairs of calendar times", "There are too many pairs of times; that the order of the texts is that of the times is a statement about all of them.", ["src/timelib/timestamp.c:timestamp", "src/logger/log_timestamp.c:log_timestamp"])
p("exactly which matches the pattern search finds", "strstr_uc and strstar try the first place of the text and, after a failure, the place behind the character that did not match; they return exactly the match at such a place, of which there is at most one. A match is passed (NULL or a later place is returned) exactly if the search, trying a place in front of it, fails with a character at or behind its start. A match at the start, or behind a character that does not occur in the needle, is not passed. A strstar pattern is found in every text that it matches exactly if it is one repeated character followed by stars; for every other pattern there is a text that contains it and NULL is returned.", "all texts, needles and places", "Which texts hide a match depends on the text and the needle together.", ["src/strlib/strstr_uc.c:strstr_uc", "src/strlib/strstar.c:strstar"])
p("escaping by replacing", "Replacing a character by a non-empty text with stringptr_replace is undone by replacing the text by the character, for every string, exactly if the text contains the character. Replacing several special characters by texts that begin with a mark (the mark itself first, then the others; distinct letters behind the mark, as in the entities of HTML) is undone by the reverse calls, for every string. With the mark not first two strings get the same escaped form, and backslash sequences, which double the mark, are not undone by replacing.", "all strings, characters, replacement texts and tables", "Strings to be escaped come from outside; that each comes back is a statement about all of them.", ["src/stringptrlist/stringptr_replace.c:stringptr_replace"])
p("descriptors and memory of the file functions", "Whatever the system answers, stringptr_fromfile, stringptr_tofile, stringptrlist_fromfile and stringptrlist_tofile work only on the descriptor they opened, never after closing it, and have closed it when they return, on every path; the one exception is stringptrlist_fromfile when it gets descriptor 0: it reads nothing, reports success and leaves the file open. A program started meanwhile by another thread inherits no descriptor, except that of stringptrlist_tofile, which is not opened close-on-exec. stringptr_fromfile leaves one block of memory if it returns a string and none if it returns NULL; stringptrlist_fromfile leaves one for each line added, and one more only if the list cannot grow.", "all answers of open, read, write, lseek and malloc, all sizes and contents, all moments of the run", "Leaks are on the paths taken when a call fails; there are as many as there are sequences of answers of the system.", ["src/stringptr/stringptr_fromfile.c:stringptr_fromfile", "src/stringptr/stringptr_tofile.c:stringptr_tofile", "src/stringptrlist/stringptrlist_fromfile.c:stringptrlist_fromfile", "src/stringptrlist/stringptrlist_tofile.c:stringptrlist_tofile", "src/fileparser/fileparser_close.c:fileparser_close"])
p("settings kept in a file", "A program that keeps settings in an INI file finds each of them (the first `key=` in the first section of the name) if it reads the file with stringptr_fromfile and stringptr_linesplit. With stringptrlist_fromfile it finds a setting exactly if neither its line nor any line before it is empty or has 1024 bytes or more; otherwise it gets NULL, never another value. Writing the lines back with stringptrlist_tofile adds one line feed to the file in every round after splitting, and after stringptrlist_fromfile drops all that stands behind the first empty or long line; it leaves the file as it was exactly if there is no such line and the file is empty or ends with a line feed.", "all files, sections, keys, system answers to read without failure, numbers of rounds", "A settings file is written by users; where it has an empty line or a long one is not known to the tests.", ["src/iniparser/iniparser.c:iniparser_get_section, iniparser_getvalue", "src/stringptrlist/stringptrlist_fromfile.c:stringptrlist_fromfile", "src/stringptrlist/stringptrlist_tofile.c:stringptrlist_tofile", "src/stringptr/stringptr_fromfile.c:stringptr_fromfile", "src/stringptrlist/stringptr_splitc.c:stringptr_splitc"])
p("tgilist used longer than its index type allows", "A tgilist with an unsigned index type of w bytes touches no foreign memory however many values are added. Values that were deleted are never given back: it holds as many values as were ever added. Each value added after the first 256^w cannot be read at all: its position reads as an older value, possibly one deleted long ago, and whatever is added. Positions that refer to the same value are one variable: setting one of them changes exactly these.", "all histories of add, insert, set, get and delete with positions that exist, with any failures in the two arrays, all item sizes and index widths", "It shows only in programs that run long enough to add more values than the index type has numbers, even if the list stays short.", ["include/tgilist.h:tgilist_add, tgilist_get, tgilist_set, tgilist_insert, tgilist_delete"])
p("Inserting into an hbmap while looping over it", "A hbmap_foreach loop whose body inserts entries ends, touches no foreign memory and misses no entry that was there when it began; an entry it does not read was inserted while the loop was at an entry later in its order (bucket, then key). If the body inserts no smaller key into the bucket of the present entry, no entry is read twice and only entries inserted into earlier buckets are not read. A new smaller key in the bucket of the present entry makes the next round read the same entry again.", "all maps reached by any history, all legal hash and comparison functions, all bodies (insertions chosen by what was read so far, any finite number), all failures of memory", "Whether the loop repeats or skips entries depends on where the hash and the order of keys put the new entry relative to the iterator.", ["include/hbmap.h:hbmap_foreach, hbmap_insert, hbmap_next_valid_impl, hbmap_next_step, hbmap_iter_index_valid", "include/bmap.h:bmap_insert_nocheck"])
p("Base64 with a small buffer or a wrong text", "When the text does not fit, base64enc_str leaves in a buffer of L bytes, L > 0, the terminated text of the first 3*((L-1)/4) bytes and touches nothing else, so a caller can print it and go on behind these bytes: with five or more bytes of buffer this prints the text of the whole source, with fewer it never ends. When base64dec fails on a text that is not empty, the buffer holds the bytes of the whole groups of four characters before the first character that is not allowed, as far as they have room, and is otherwise unchanged; no terminator is stored.", "all sources without zero byte, all texts of less than 2^31 characters, all buffers of all sizes", "The contents after a failure depend on where among all texts and sizes the failure happens; tests look at the result only.", ["src/strlib/base64enc_str.c:base64enc_str", "src/strlib/base64dec.c:base64dec", "include/strlib.h:base64enc_str, base64dec"])
p("rc4 does not get into its short cycles", "The generator in rc4 has states from which it repeats itself after 65280 bytes: those where the second index is one after the first and the table has a 1 there; they return after exactly the multiples of 65280 bytes. No key leads there: however many bytes are converted in one call, the state before each byte is not one of these.", "all keys that are not empty, all numbers of bytes, all tables", "Which states are reached after how many bytes cannot be tried out for all keys and lengths.", ["src/strlib/rc4.c:rc4", "include/strlib.h:rc4"])
p("Numbers kept in a settings file", "A setting written as the decimal numeral of an int is read back as this int by looking up the value and passing its pointer and size to strtoint, whatever else is in the file; only for the smallest int the behaviour is undefined. If the lines end with carriage return and line feed, every number is read as another one: ten times the number less 35 (plus 35 for a negative number). A setting that is not there is reported as missing.", "all files, sections, keys and ints (carriage return: below 2*10^8 in size), all patterns of partial reads", "Needs all files and all numbers at once.", ["src/iniparser/iniparser.c:iniparser_get_section, iniparser_getvalue", "src/strlib/strtoint.c:strtoint", "src/stringptr/stringptr_fromfile.c:stringptr_fromfile", "include/stringptrlist.h:stringptr_linesplit"])
p("Joining with a string and splitting at it", "If no proper part of the delimiter is both its beginning and its end (such as CR LF or comma blank), texts joined with it are given back by stringptr_splits exactly if none of them contains it. For every other delimiter there are two texts, shorter than the delimiter, that are not given back. A list made into a text by stringptrlist_tostring_dos and split at CR LF gives the entries and one more, empty, text exactly if no entry contains CR LF; single carriage returns and line feeds in the entries do no harm.", "all delimiters that are not empty, all lists of texts of all lengths", "An overlap depends on the delimiter and on what stands before it.", ["src/stringptrlist/stringptr_splits.c:stringptr_splits", "src/stringptrlist/stringptrlist_tostring_dos.c:stringptrlist_tostring_dos", "src/stringptr/stringptr_here.c:stringptr_here"])
p("Lines without their ends", "Splitting any text with stringptr_linesplit and calling stringptr_chomp for every entry touches no foreign memory and gives every line without all the carriage returns at its end; the entries stay terminated. A list made into a text by stringptrlist_tostring_dos or stringptrlist_tostring comes back in this way, with one more, empty, entry, exactly if no entry contains a line feed or ends with a carriage return.", "all texts, all lists of texts", "The entries share one buffer that both functions write to; whether they stay apart must hold for all texts.", ["src/stringptrlist/stringptr_splitc.c:stringptr_splitc", "src/stringptr/stringptr_chomp.c:stringptr_chomp", "src/stringptrlist/stringptrlist_tostring_dos.c:stringptrlist_tostring_dos", "src/stringptrlist/stringptrlist_tostring.c:stringptrlist_tostring", "include/stringptrlist.h:stringptr_linesplit"])
p("Replacing one text by another and back", "Replacing text A by another text B with stringptr_replace and then B by A gives the original string exactly if B is in none of the pieces between the occurrences of A, provided that no proper part of B is both its beginning and its end; so in particular if B is not in the string. For every other B and every character that is not in B there is a string without B in which replacing the character by B is not undone by replacing B by the character.", "all strings, all pairs of different non-empty texts", "Occurrences of the second text can arise across the places of replacement; to exclude this needs all strings and all pairs of texts.", ["src/stringptrlist/stringptr_replace.c:stringptr_replace", "src/stringptrlist/stringptr_splits.c:stringptr_splits"])
p("Whether replacing leaves nothing to replace", "stringptr_replace with a different replacement returns the text unchanged exactly if the pattern is not in it. Deleting a pattern with one call leaves no occurrence of it, whatever the string, exactly if the pattern is one character, once or repeated; so removing ../ from a path can leave ../ in it. Replacing the pattern by one character that is not in it leaves no occurrence.", "all strings, all non-empty patterns", "New occurrences arise from what stands around the removed ones; that none arises must hold for all strings.", ["src/stringptrlist/stringptr_replace.c:stringptr_replace", "src/stringptrlist/stringptr_splits.c:stringptr_splits"])
p("Replacing until nothing is left to replace", "Calling stringptr_replace as long as stringptr_contains finds the pattern ends for every string if the replacement is shorter than the pattern, after at most as many rounds as the string has bytes, with a result that is not longer and does not contain the pattern; a string without the pattern is returned as it is, and with an empty replacement the result is the string with some characters left out. If the replacement contains the pattern the loop never ends well for any string with the pattern.", "all strings, patterns and replacements", "Every round can bring new occurrences; that they run out, or never do, must hold for all strings and any number of rounds.", ["src/stringptrlist/stringptr_replace.c:stringptr_replace", "src/stringptr/stringptr_contains.c:stringptr_contains"])
p("Splitting at a character and at a text of one character", "stringptr_splits at a text of one character and stringptr_splitc at that character do the same for every string: the same pieces at the same places, the same changes to the buffer, the same entries lost if the list cannot grow, the same errors if the buffer is too short. The last piece is what follows the place stringptr_rchr finds for the character; if it finds none, the text is the only piece.", "all strings and characters, all patterns of failing growth", "The two functions are written separately; that they agree must hold for all strings and failures.", ["src/stringptrlist/stringptr_splitc.c:stringptr_splitc", "src/stringptrlist/stringptr_splits.c:stringptr_splits", "src/stringptr/stringptr_rchr.c:stringptr_rchr"])
