# Run at the end of props.py: symbols for anchors that only name a file, and fuller wording where an entry was terse.
import os
SYM = {
 'src/strlib/base64_tbl.c':'base64_tbl', 'src/strlib/conv_cypher.c':'conv_cypher',
 'include/strswitch.h':'STRSWITCH_LETTERS, STRSWITCH_NUMBERS, STRSWITCH_ALPHA, STRSWITCH_NON_ALPHA',
 'src/crc32/crc32_impl.c':'InitTables, Init, Update, Final', 'include/crc32_impl.h':'InitTables, Init, Update, Final',
 'src/md5/md5.c':'md5_init, md5_update, md5_end', 'src/sha512/sha512.c':'sha512_init, sha512_update, sha512_end',
 'src/sblist/sblist.c':'sblist_new, sblist_get, sblist_set, sblist_add, sblist_free', 'src/tlist/tlist.c':'tlist_insert, tlist_get, tlist_delete, tlist_getsize',
 'include/tglist.h':'tglist_add, tglist_get, tglist_set, tglist_insert, tglist_delete, tglist_free_items',
 'include/tgilist.h':'tgilist_add, tgilist_get, tgilist_set, tgilist_insert, tgilist_delete, tgilist_free_items',
 'include/bmap.h':'bmap_insert, bmap_find, bmap_get, bmap_delete, bmap_fini', 'include/hbmap.h':'hbmap_insert, hbmap_find, hbmap_get, hbmap_delete, hbmap_fini',
 'src/hashlist/hashlist.c':'hashlist_new, hashlist_add, hashlist_get', 'src/hashlist/hashlist_iterator.c':'hashlist_iterator_init, hashlist_next',
 'src/kvlist/kvlist.c':'kv_find', 'src/filelib/getfileext.c':'getFileExt',
 'src/iniparser/iniparser.c':'iniparser_get_section, iniparser_getvalue', 'include/ssalloc.c':'ssa_init, ssa_alloc, ssa_free',
 'include/bitarray.h':'BA_SIZE_REQUIRED, BA_GET, BA_SET, BA_SET_TRUE, BA_SET_FALSE', 'include/guard_alloc.c':'guard_alloc, guard_free', 'include/endianness.h':'byteswap16, byteswap32, byteswap64, le16, le32',
 'src/proclib/process.c':'process_open, process_close', 'src/filelist/filelist.c':'filelist_search', 'include/sptrlist.h':'sptrlist_add, sptrlist_get, sptrlist_set, sptrlist_get_count',
 'include/stdio-repl.h':'printf, fprintf, puts', 'examples/hex.c':'main', 'examples/crc32_printer.c':'main', 'examples/filelist_find_test.c':'main, doDir',
 'examples/filelist_find_test2.c':'main', 'examples/iniparser_test.c':'main', 'tests/tlist_test.c':'main',
}
QUANT = {
 'C32':'every sequence of insertions and deletions, with every allocation failure and every content of the heap that decides the shape of the tree',
 'C36':'every sequence of calls with positions inside the list, every item size and every pattern of allocation failures',
 'C38':'every sequence of calls, every comparison function that is a weak order, every key and value size, every pattern of allocation failures',
 'C21':'every message of any length', 'C23':'every byte string of any length',
 'C41':'every map that can be reached by a sequence of calls, with any number of buckets and any hash function', 'C43':'every table that can be reached by adding items, with any number of buckets',
 'C46':'every string, on platforms with 32-bit and with 64-bit words', 'C47':'every string and every number of characters',
 'C52':'every list of strings, every allocation outcome', 'C53':'every list of strings and every string searched for',
 'C57':'every path shorter than PATH_MAX', 'C58':'every path and every output buffer that is large enough', 'C60':'every file name',
 'C64':'every format text with a precision', 'C66':'every list of lines and every section name', 'C68':'every list of lines',
 'C70':'every sequence of allocations and releases, with every outcome of mmap', 'C71':'every sequence of allocations and releases',
 'C74':'all 2^16, 2^32 and 2^64 values, on both byte orders', 'C75':'all normalized times whose difference is representable',
 'C79':'every step at which pipe, fork or the allocation can fail, every descriptor table', 'C85':'every requested size up to 2^64 - 1',
 'C86':'every string of any length', 'C110':'every list of strings of any length', 'C118':'every file and option', 'C121':'every file, read in any pieces',
 'C130':'every path with or without a drive', 'C131':'every path with or without a drive', 'C143':'all 256 characters', 'C152':'every requested number of buckets up to 2^64 - 1',
 'C34':'every non-empty list and every index in it', 'C35':'every list that can be reached by a sequence of calls',
}
WHY = {
 'C02':'The claim is about inputs of every length and content; tests compare a few vectors, and a wrong table entry or padding case shows only for particular bytes at particular positions.',
 'C05':'There are infinitely many byte strings; tests try a few, and one wrong digit shows only for particular bytes.',
 'C06':'Texts of both parities, both cases and every length are covered; a test tries a handful.',
 'C07':'Keys and data are unbounded; the published vectors exercise a few keys, and an index that wraps wrongly shows only for some lengths.',
 'C08':'There are 2^64 values; tests try a few, and errors sit at the limits of the types.',
 'C09':'The product of numbers, bases, flags, lengths and buffers is far beyond enumeration.',
 'C11':'The boundary is one value among 2^32, and it is undefined behaviour there, which a test may not notice.',
 'C12':'There are 2^64 values; tests try a few.', 'C13':'There are 2^32 addresses; tests try a few.',
 'C14':'The set of texts is infinite, and what matters is the texts nobody thought of.',
 'C15':'Haystacks and needles are unbounded; whether a search is exact depends on how needle and haystack overlap themselves.',
 'C16':'Texts and words are unbounded; the boundaries depend on the characters around each occurrence.',
 'C18':'There are infinitely many pairs; the wrong cases are suffixes longer than the string and characters above 127.',
 'C20':'The claim is about every message, position and error pattern of up to 32 bits; no sample can show that none of them goes undetected.',
 'C21':'The claim is about messages of every length.', 'C23':'The claim is about inputs of every length and content.',
 'C24':'The lengths go up to 2^64 bytes, and every documented division into chunks must give the same digest.',
 'C25':'Histories are unbounded, and each allocation in them may fail; tests run short histories in which nothing fails.',
 'C26':'Every allocation at every point of a history may fail; tests cannot make each of them fail.',
 'C27':'Lists and comparison functions are unbounded; an error in the search interval shows only for some lengths and positions.',
 'C28':'Lists and comparison functions are unbounded; an error in the search interval shows only for some lengths and positions.',
 'C29':'The overflow of the heap is silent, and depends on the sizes and the number of additions.',
 'C30':'Freeing a wrong pointer is undefined: a test may pass by luck of the allocator.',
 'C32':'The invariant must hold after every history; tests look at the contents, not at the tree.',
 'C33':'Reading outside is undefined: whether a test notices depends on the memory around.',
 'C34':'Freeing a pointer into a block is undefined: a test may pass by luck of the allocator.',
 'C35':'Trees of every size and shape must be freed completely and without freeing a node twice; tests do not count the nodes.',
 'C36':'Histories are unbounded, and each allocation in them may fail.', 'C37':'Histories are unbounded, and each of the two allocations in a call may fail separately.',
 'C38':'Histories and comparison functions are unbounded; errors show only for particular orders of insertions and deletions.',
 'C39':'The second of two allocations must fail at a chosen point of a history, which tests do not arrange.',
 'C41':'The claim is about every map; empty buckets at the start, in the middle and at the end are the cases that go wrong.',
 'C42':'Histories, hash values and allocation failures are unbounded.', 'C43':'The claim is about every table; empty buckets are the cases that go wrong.',
 'C44':'Lists are unbounded; which of several equal keys is found shows only with duplicates.',
 'C45':'Strings and positions are unbounded; the wrong cases are needles that reach over the end.',
 'C46':'A test runs on one platform; the claim compares two for every string.', 'C47':'Strings are unbounded; strings made only of the trimmed characters and empty ones are the cases that go wrong.',
 'C48':'Strings and lists are unbounded, and each allocation may fail.', 'C49':'Strings are unbounded; delimiters at the ends and next to each other are the cases that go wrong.',
 'C50':'Strings and delimiters are unbounded; delimiters that overlap themselves are the cases that go wrong.',
 'C51':'Texts, patterns and replacements are unbounded; patterns that overlap themselves are the cases that go wrong.',
 'C52':'Lists are unbounded; empty lists and empty strings are the cases that go wrong.', 'C53':'Lists are unbounded; which of several equal strings is found shows only with duplicates.',
 'C54':'Lists and files are unbounded; strings with newlines and lines of the size of the buffer are the cases that go wrong.',
 'C55':'Files and buffer sizes are unbounded; lines whose end falls on the border of the buffer are the cases that go wrong.',
 'C56':'Files and positions are unbounded; lines at the border of the buffer are the cases that go wrong.',
 'C57':'Paths are unbounded; sequences of dots and slashes combine in ways no list of examples covers.',
 'C58':'Paths are unbounded, and the bound on what is written must hold for each of them.', 'C59':'Pairs of paths are unbounded; common prefixes that end inside a component are the cases that go wrong.',
 'C60':'Names are unbounded; names without a dot or slash and names that end with one are the cases that go wrong.',
 'C61':'Every prefix, buffer size and answer of mkdir must be safe; a test sees one environment.',
 'C62':'Formats, arguments and sizes are unbounded, and a write behind the buffer may go unnoticed.',
 'C63':'There are 2^64 arguments for each conversion; tests try a few.', 'C64':'Formats are unbounded; tests use one or two precisions.',
 'C65':'Tests see the times at which they run.', 'C66':'Files are unbounded; sections that are repeated, empty or last are the cases that go wrong.',
 'C67':'Files, sections and keys are unbounded; keys that are prefixes of others are the cases that go wrong.', 'C68':'Files are unbounded; broken section lines are the cases that go wrong.',
 'C69':'Argument vectors are unbounded; names that are prefixes of others and options at the end are the cases that go wrong.',
 'C70':'Histories are unbounded, and an overlap shows only when both blocks are used.', 'C71':'Histories are unbounded; fragmentation depends on the order of releases.',
 'C72':'Arrays and index pairs are unbounded; the claim that other bits stay as they are quantifies over all of them.',
 'C73':'The leak shows only for multiples of the page size, and only in the memory map of the process.',
 'C74':'There are 2^64 values, and a test runs on one byte order.', 'C75':'There are 2^64 pairs of times and more; the wrong cases are borrows and negative differences.',
 'C76':'A test cannot choose when signals interrupt the call.', 'C77':'Argument lists are unbounded.',
 'C78':'A test cannot choose how much each read or write transfers.', 'C79':'Each step must be made to fail, with each table of open descriptors.',
 'C80':'Directories, masks and the results of glob are unbounded; the directory names with special characters are the cases that go wrong.',
 'C81':'Reading one byte too many goes unnoticed unless the object ends at the end of mapped memory.',
 'C83':'Lists, items and comparison functions are unbounded.', 'C84':'Lines and buffer sizes are unbounded; empty lines and lines without a newline are the cases that go wrong.',
 'C85':'The boundary is at 2^64, which no test asks for.', 'C86':'Strings are unbounded; bytes above 127 are the cases that go wrong.',
 'C87':'Each of the allocations may fail.', 'C88':'Lists are unbounded; a test does not see which blocks are freed.', 'C89':'Each of the allocations may fail, at any point of a history.',
 'C90':'The result without the initialisation is plausible; tests initialise.', 'C91':'Tests call it once.', 'C93':'Formats are unbounded; the effect shows only in the conversion after the one with the precision.',
 'C94':'Formats are unbounded; tests use supported ones.', 'C95':'Formats are unbounded, and the text may be longer than the internal buffer.',
 'C96':'A test cannot choose how much each write transfers, nor which one fails.', 'C97':'Tests start with descriptors 0, 1 and 2 open; the claim is about every table.',
 'C98':'Tests start with one table of descriptors and one limit.', 'C102':'The shortest message for which the documentation is right has 1.7 GB.',
 'C103':'Inputs are unbounded, and a test cannot choose into which pieces reads divide them.', 'C104':'Files and counts are unbounded.',
 'C105':'Pairs of files are unbounded; differences at the border of the buffer are the cases that go wrong.', 'C106':'Names are unbounded; tests use names without a trailing slash.',
 'C107':'Pairs of files are unbounded; differences at the border of the buffer are the cases that go wrong.', 'C108':'The claim is about every pair of files with such a block, of any length.',
 'C109':'Histories are unbounded, and each allocation in them may fail.', 'C110':'Lists are unbounded.', 'C111':'Lists and indices are unbounded, and indices outside are undefined.',
 'C112':'Lists and comparison functions are unbounded.', 'C113':'A test does not see which blocks are freed, nor how often.', 'C114':'Histories over several files are unbounded; a test does not count descriptors.',
 'C115':'Argument lists are unbounded.', 'C116':'What happens is the choice of the compiler; a test sees one compiler.',
 'C117':'Files are unbounded, and the order in which the map is visited is not fixed.', 'C118':'The claim is about everything that is not reported, in files of any length.',
 'C119':'Tests cannot observe that a program never ends.', 'C120':'The behaviour is undefined: a test may pass by luck.', 'C121':'Files are unbounded; lines at the border of the buffer are the cases that go wrong.',
 'C123':'A test cannot choose how much each read returns.', 'C124':'Each call must be made to fail, at each point of the file.',
 'C125':'Histories and comparison functions are unbounded, and each allocation in them may fail.', 'C126':'The limit is reached after 2^32 operations.',
 'C127':'Maps are unbounded; a test does not see which blocks are freed.', 'C129':'The value is left to the compiler; a test sees one compiler.',
 'C130':'Paths are unbounded, and the tests are not compiled with this option.', 'C131':'Paths are unbounded, and the tests are not compiled with this option.',
 'C132':'Histories are unbounded, and each allocation in them may fail; a test does not see which blocks are freed.', 'C133':'Leaks are invisible to a test of the result, and each allocation may fail.',
 'C135':'Leaks are invisible to a test of the result, and each allocation may fail.', 'C136':'Directory trees are unbounded.', 'C137':'File systems with cycles are infinite trees; a test cannot observe that a program ends in all of them.',
 'C138':'An allocation must fail at a chosen point of the walk.', 'C139':'Argument lists are unbounded; tests look at the output, not at the calls.', 'C140':'A test cannot choose how much each write transfers.',
 'C141':'A test cannot enumerate the schedules of two processes.', 'C142':'The result depends on uninitialised memory; a test sees one content.', 'C143':'Tests try a few characters.',
 'C144':'Whether the buffer moves depends on the allocator and on the capacity; a test may pass by luck.', 'C146':'Texts are unbounded.', 'C147':'Texts are unbounded; tests use well-formed files with Unix line ends.',
 'C149':'Histories are unbounded, each allocation may fail, and leaks are invisible to a test of the results.', 'C150':'Histories are unbounded, each allocation may fail, and leaks are invisible to a test of the results.',
 'C151':'Histories are unbounded, each allocation may fail, and leaks are invisible to a test of the results.', 'C152':'The boundaries are near 2^64.', 'C153':'The boundaries depend on the index type; tests use one.',
 'C156':'Histories are unbounded, and each allocation in them may fail.', 'C157':'The claim is about every function, also those no test author would write.', 'C158':'A test cannot enumerate the schedules.',
 'C159':'The claim is about every sequence of random numbers; a test sees one.', 'C160':'A test cannot enumerate the interleavings of appends and reads.', 'C161':'A test cannot enumerate the interleavings of appends and reads.',
 'C162':'A test cannot stop the program at each of its system calls, with each amount transferred.', 'C163':'A test cannot enumerate the interleavings of the processes.', 'C165':'Histories of several processes, with every failure, are unbounded.',
 'C170':'The test decrypts two published messages; the claim is about every text, key and number of rounds.',
}
for q in P:
    i = q['id']
    if i in QUANT: q['quantifier'] = QUANT[i]
    if i in WHY: q['why_tests_cant'] = WHY[i]
    A = []
    for a in q['anchors']:
        if ':' not in a:
            b = os.path.basename(a).rsplit('.', 1)[0]
            a = a + ':' + SYM[a] if a in SYM else a + ':' + b
        A.append(a)
    q['anchors'] = [a.replace('include/crc32.h:crc32', 'include/crc32_impl.h:InitTables') for a in A]
