# A machine-checked model of rofl0r/libulz

`properties.jsonl` lists the properties (C01 ...), `MANIFEST.json` maps each to its theorems,
`lean/Verif` is the Lean 4 development, `seeded/LOG.jsonl` records the deliberate bugs that were
put into copies of the model and which theorems caught them.

## 1. Layout

* `Verif/Base.lean` – bytes, undefined-behaviour outcomes, bounds-checked memory.
* `Verif/Model/X.lean` – the model of module X; every definition cites the file and lines it models.
* `Verif/Spec/X.lean` – small specification of what X should compute, not using the model.
* `Verif/Proofs/X.lean` – lemmas.
* `Verif/Props/X.lean` – the property theorems (named `C..`-wise in MANIFEST.json), each followed by
  a concrete `example` that meets its hypotheses.
* `Verif/Tests.lean` – the vectors of /repo/tests run against the model. These are tests of the model, not
  proofs of anything; no claim rests on them.

## 2. Modelling conventions

* **Platform**: LP64, x86-like (`char` signed, `int` 32 bit, `long`, `size_t`, pointers 64 bit, two's
  complement, little endian). Where the code is parametrised by width (`uint_fast32_t`) the width is a
  parameter.
* **Undefined behaviour is an outcome**, never a value: a model function returns `Except UB α`
  (`C α`). Out-of-bounds read/write, null dereference, signed overflow, division by zero, a free of a
  pointer that was not allocated and non-termination are distinct errors. "Safe" theorems say the result
  is `.ok _`; "unsafe" theorems name the error.
* **Memory**: each caller-visible buffer is a `List Byte` whose length is the exact number of bytes the
  caller owns; `rd`/`wr` check every index against that length. A C string `s` is the buffer
  `s ++ [0]` with no 0 in `s` (so reading beyond the terminator is an error). Distinct buffers do not
  alias unless a theorem is about aliasing (rc4 in place).
* **Integers**: bytes and words that are manipulated bitwise are `BitVec`; `size_t` counters are `Nat`
  when they cannot wrap for any object that fits in memory (C guarantees objects are smaller than
  2^63 bytes), and reduced mod 2^64 / 2^32 where the code can wrap; signed arithmetic is on `Int` with
  an explicit overflow check.
* **Loops** are recursion on the data they walk over, or on a fuel argument together with a proof that
  the fuel given is always enough (running out of fuel is the error `UB.hang`, so `.ok` also states
  termination).
* **Environment**: `malloc`/`realloc` success, `read`/`write`/`mkdir`/`glob`/`nanosleep`/`pipe`
  results, the clock and random numbers are parameters (oracles) that a theorem quantifies over.
* **Library functions of the C library** (`strlen`, `memcpy`, `memmove`, `memcmp`, `strcmp`, `strchr`,
  `strrchr`, `bsearch`, `qsort`, `glob`, `posix_spawn`, `nanosleep`, `mmap`, `fread`, `fgets`) are modelled by their ISO C contract; this is part of the trusted base.

## 3. Trusted base

* The Lean 4.33.0 kernel. No `sorry`, no own axioms, no `native_decide`/`bv_decide`. The theorems depend
  only on `propext`, `Classical.choice` and `Quot.sound`; `Verif/Audit.lean` prints this for each of them.
* The faithfulness of the hand-written model to the C text: C is not parsed; each definition cites what it
  models and states its simplifications.
* The platform assumptions and the libc contracts above.
* Not modelled: the compiler, concurrency (except where a property is about threads or processes), errno values, the exact layout produced by `malloc`, and the
  parts of the library listed in section 6.

## 4. Plan per property

| id | model | proof |
|----|-------|-------|
| C01-C04 | base64enc/dec/enc_str over bounds-checked buffers; spec = RFC 4648 by 3-byte groups | induction over groups; per-group facts decided over 64/256-element domains; acceptance as an iff with an inductive-free grammar |
| C05-C06 | raw2hex, hex2raw | induction over bytes; value of numeral in base 16 |
| C07 | rc4 key schedule and stream over 256-entry state | loop invariant (lengths), stream equals spec, xor involution |
| C08-C09, C12 | numberToString with pointer arithmetic in the caller's buffer, strtoint(64) | invariant "digits written so far = low digits"; uniqueness of numerals |
| C10-C11 | utoa/itoa with pre-computed length loops | digit-count lemma; boundary as iff |
| C13-C14 | stringfromipv4, ipv4fromstring, isnumericipv4 | per-byte facts decided over all 256 bytes, state-machine invariant |
| C15-C16 | strstr_uc, strstar, findword | soundness by induction on the scan; witnesses for incompleteness |
| C17-C18 | character functions, strends, containsChar | decision over all bytes; list lemmas |
| C19-C21 | InitTables, slicing-by-4 Update, Final, on BitVec 32 | table = bitwise remainder by GF(2) linearity (xor-homomorphism) and basis check; injectivity of the step for bursts |
| C22-C24 | md5/sha512 buffering and compression | buffering invariant against the padded-message spec; in-place schedule against the 80-word schedule |
| C25-C30 | sblist over an item array with capacity | forward simulation to `List`, allocation oracle; binary search invariants |
| C31-C35 | treap with counts, priorities from mrand | representation invariant, in-order list |
| C36-C41 | tglist, tgilist, bmap, hbmap | forward simulation to `List` / finite maps |
| C42-C44 | hashlist, iterator, kvlist | induction over histories |
| C45-C48 | stringptr functions | list lemmas |
| C49-C54 | split/replace/join/find/files | induction over the scan; uniqueness of splits |
| C55-C56 | fileparser on a file = byte list + offset | arithmetic on offsets |
| C57-C61 | path functions, mktempdir | in-place scan invariant (output never overtakes input) against component semantics |
| C62-C65 | vsnprintf interpreter over format and arguments | output = prefix of the ideal text |
| C66-C69 | iniparser, optparser | list search lemmas |
| C70-C74 | ssalloc, bitarray, guard_alloc, endianness | invariants; BitVec extensionality |
| C75-C76 | timespec_diff, mspassed, getutime; msleep/microsleep against every schedule of signals | integer arithmetic; induction over the schedule |
| C77, C95 | log_put and its helpers, ulz_printf/fprintf, stringptr_format over the formatter of C62 | the text written as a function of the arguments |
| C78, C96 | stringptr_fromfile/tofile, stringptrlist_tofile against a list of answers of read/write | induction over the answers |
| C79, C97-C98 | process_open, daemonize over descriptor tables | case analysis of every failure point; invariant of the closing loop |
| C80, C99 | filelist_search, glob an arbitrary function | in-place escaping against the pattern grammar |
| C81, C84-C89 | strdup_n, read_stdin_line, stringptr_new, stringptr_hash, freeing and duplicating lists on a heap of live blocks | induction; exact boundaries |
| C82-C83 | tglist_free_values, tglist_insert_sorted | simulation |
| C90-C92 | crc and sha512 used outside their documented protocol | witnesses and exact statements |
| C93-C94 | leaking precision, unsupported formats | decomposition of every format string |
| C100-C102 | CRC as polynomial over GF(2) (Mathlib polynomials), order of x modulo the generators | order by factorisation of 2^32-1 and 2^31-1; kernel-checked powers |
| C103-C108 | the example programs hex, crc32_printer, find_identical_files, diff: their text output | composition with the library's theorems; maximal runs of differing bytes |
| C109-C113 | stringlist.h, sptrlist.h, sblist_sort, stringptrlist_freeall over sblist and a heap of live blocks | induction over histories; permutation and order from the contract of qsort |
| C114-C116 | descriptors of the file parser, op_printall, the macros of stdio-repl.h | invariant of the descriptor table; exact boundaries |
| C117-C121 | the example program codedup: reading, search, output | induction over the search loops, with a record of what each jump skips |
| C122-C124 | the line reader with every answer of read and lseek: errors, short reads | case analysis over the answers; induction over the pieces of a line and over the calls |
| C125-C127 | bmap with `BMAP_USE_TGILIST`; bmap_fini in both variants | invariant tying entries to value slots; exact set of freed addresses |
| C128-C129 | the directory walk of find_identical_files over the model of filelist_search; the missing return value is arbitrary | induction over trees that can be walked; termination by the length of paths |
| C130-C131 | normalizepath_cstr with PSPLIKE_PATH (drives) | simulation: the loop behind a drive is the loop of C58 shifted by the drive |
| C132-C135 | the blocks that sblist, hashlist, stringptr_replace and filelist_search allocate and free, with any failures | invariant: live blocks are those owned plus those from before; simulation of the models without memory |
| C136-C138 | the two programs that list a directory tree, over the model of filelist_search; a tree as the specification of the file system | induction over trees and the depth of the recursion; termination by the number of slashes or the length of paths |
| C139-C141 | the logger and ulz_printf as sequences of `write` calls; calls may write less, and calls of two processes may interleave | induction over the arguments and over interleavings |
| C142 | process_close with the status word of waitpid (Linux encoding) | bit by bit |
| C143 | the character classes of strswitch.h | all 256 bytes by the kernel |
| C144 | sblist functions given a pointer into the list's own buffer: `realloc` invalidates it, `memcpy` must not overlap | what the buffer holds at the pointer after growth and shift |
| C145 | tglist macros with an expression over the list, evaluated where the macro evaluates it | the same |
| C146-C147 | linesplit, get_section and getvalue composed as in examples/iniparser_test.c, for any text, section and key; a file of sections and entries with its text as the specification | composition of C49, C66, C67; induction over the sections |
| C148 | `hbmap_foreach` with a body that changes the map: the loop of the header comment, the same with a condition, and the loop it warns about | induction over the remaining entries with the part of the bucket behind the iterator as state |
| C149-C151 | tglist, tgilist, bmap and hbmap on the heap of C132, in programs whose items are blocks they own; positions and comparison results are left open | invariant: the allocated blocks are a permutation of arrays, items and the rest; induction over the history and the buckets |
| C152 | the size computation and the writes of `hbmap_new` | arithmetic modulo 2^64, induction over the buckets |
| C153 | `tgilist` with a signed index type: reading an index gives a two's complement number | below half of the index values the sign does not matter, so C37's induction applies; arithmetic for the rest |
| C154 | programs using the calls the four list types have in common | simulation of each type by a mathematical list, one call at a time |
| C155 | the tree `tlist_insert` builds, with its priorities | positions computed from the fixed priorities keep the tree a path without right children; induction over the insertions |
| C156 | `bmap` calls including `bmap_insert_nocheck` of existing keys | the map object lists a bag of entries sorted weakly; induction over the history |
| C157 | the same calls with an arbitrary comparison function and a `bsearch` that only stays in the array | alignment of keys and values as invariant; induction over the history |
| C158, C159 | processes in the middle of `mktempdir`, given by the answers of `mkdir` so far; a shared set of directories; any schedule | a process is a function of the answers; invariant: the directories are those owned and those of others, none twice; induction over the schedule |
| C160, C161 | a file that is appended to between calls of `fileparser_readline` | the file offset and the parser's idea of it differ by the number of unfinished lines read since the last line feed; induction over the history |
| C162 | Savers: one writer as a sequence of system calls (open with truncation, transfers of any size) | linked to the functional model of stringptr_tofile and stringptrlist_tofile; every reachable state characterised by induction; every partial content reached |
| C163 | Savers: any number of writers, any interleaving, write at own offset with zero-filled gaps | invariant: every byte from some text or zero, last opener's prefix solid; equal texts corollary; mixtures and holes by explicit schedules for all texts |
| C164 | Ssatest: `ssa_free` with DEBUG, and the program tests/ssalloc_test.c with its memory, pointers, loops and assertions | the invariant of C70 also fixes `avail`, `top` and the bits; the program's pointers are a permutation of the live elements' addresses and each holds the word written to it |
| C165 | Family: a caller and any number of processes with their descriptor tables; process_open from the existing model (tables hidden and revealed), children that exit at the end of their input | invariant over all histories of process_open and process_close: who has which end of which pipe; end of file iff nobody has the write end |
| C166 | Crcinit: the stores of InitTables one by one, threads that interleave them, look-ups in the memory meanwhile | invariant over schedules: a location holds its final value iff some thread has done that store, else its initial value |
| C167, C168 | Overlap: base64enc, base64dec, raw2hex, hex2raw and rc4 with source and destination in one object, every load seeing the stores before it | simulation of the version with separate objects: the positions still to be read are not yet written; recurrence for rc4 with the destination behind |
| C169 | Rc4: the key schedule for two keys | induction over the 256 steps: both keys give the same byte at each step |
| C170 | Saber: rc4_n, ciphersaber_1_dec and ciphersaber_2_dec of tests/rc4_test.c | refinement of the published cipher (Spec.Saber), induction over the rounds; the negative part from the lemma of C169 |
| C171 | Saber: main of tests/rc4_test.c with an argument | the same; the two fixed messages are computed in the kernel on the box encoded as one number |
| C172 | `Shatest`: `crypto_hash`, `sha512_to_str`, `test` and `main` of tests/sha512_test.c | `crypto_hash` equals init/update/end on one chunk, hence C24; the loops of `test` deliver pieces of 128 bytes, induction over the lengths |
| C173 | `Shatest`: `sha512_hash` and `test_file` with every sequence of answers of `read` | induction over the pieces delivered; C24 for whole blocks, C92 for others; C78 for the second reading |
| C174 | `Fromdata`: `sblist_new_from_data`, `sblist_set_blockitems`, then any calls | simulation: the list with left-over bytes behind its buffer does what the list of C25 does |
| C175 | `Fromdata`: the blocks behind such lists, with `realloc(p, 0)` as ISO C 2017 permits | evaluation, for all sizes and heaps |
| C176 | `Nextsec`: the test program that goes through all sections of one name, for every text of the file | induction over the headers with C66, C67, C49; induction over the sections of a clean file |
| C177 | `Tlist` at 2^32 - 1 items: one more insertion, then size, deletion, freeing | the merge lemma again with counts modulo 2^32; induction for the existence of lists of every size |
| C178 | `Iter`: the loop macros of sblist and tglist, the body a function on the list and the loop variable; bodies that search, delete with and without stepping back | induction over the items still ahead; `leftover` described by neighbours |
| C179 | `Iter`: a loop over an sblist whose body appends to it | the order of a queue, then generations by induction on their number |
| C180 | `Bmap`: the hash map with a hash function about which nothing is assumed | refinement of a map whose keys are identified when they compare equal and share a bucket |
| C181 | `Inplace`: normalizepath_cstr on one object that holds both the path and the output | simulation of the run with a separate buffer; the output never overtakes the path; periodic memory for the negative part |
| C182 | `Linecat`: examples/fileparser_test.c with all that `open`, `read` and `lseek` may do; examples/stringptr_test1.c | induction over the lines, and over the bytes still ahead for an arbitrary system |
| C183 | `Strmap`: `bmap(char*, V)` with the comparison of the benchmarks; the memory the keys point into is a parameter of each call | refinement of a map from strings, through the refinement for one comparison function, and its invariance under changes elsewhere |
| C184 | `Bench`: `test_bmap` of tests/bmap_bench.c and tests/hbmap_bench.c for any number of items, lookups and buckets | invariant of the loops: the map holds exactly the first n numerals; `strcmp` order of numerals; frees as in C127 |
| C185 | `Proc`: as for C79, with descriptors handed out from the lowest on | the close actions of the child hit the read end of the first pipe; composition with daemonize |
| C186 | `Numbers.strtoint64`, `Numbers.strtoint`, `Text.isnumericipv4`, `Text.ipv4fromstring` on arbitrary texts | the loops compute the value of the text read with signed digits as long as the weights fit; the exact boundary by the size of the first character; what isnumericipv4 accepts splits into four short parts |
| C187 | `Base64`, `Fileparser.readline_userbuf`, `Filelib.normalizepath_cstr`, `Psp` with an output object larger than the size they may use | a run that succeeds on a buffer does the same on that buffer with anything appended; the counter of base64dec overflows exactly from 2^31 symbols and 3*(2^29-1) bytes on |
| C188 | `Hstrmap`: `hbmap(char*, V, N)` with the comparison of the benchmarks and any hash function of the string; the memory is a parameter of each call | refinement of a map from strings through `hstep_spec`; for changing keys, lemmas about the one bucket that is looked into |
| C189 | `Subcmp`: `return *a - *b` as comparison function, undefined when the difference is no `int`; `bmap` and `tglist_insert_sorted` with a comparison that can fail | all comparisons of a history within reach are defined and equal those of `Bmap`, so `step_spec` applies; beyond it, the comparison with the middle element; wrapping arithmetic through `Int.bmod` |
| C190 | `Stdin`: read_stdin_line with `fgets` by contract and the loop a caller writes around it | induction over the input; the pieces are unique; a text is put together again exactly if every piece ends with a newline |
| C191 | `Cost`: sorted insertion and binary search with a comparison that has a state, recording the items it is called with; buffer sizes over histories of `Sblist` and `Tglist` calls | induction over the search interval with ⌊log₂⌋ as the measure; invariant: the capacity is the smallest step that holds the largest number of items so far |
| C192 | `Macroarg`: the macros with arguments that are expressions with a state (each textual use evaluates again), and FREEFLAGS as a syntax tree next to `&` | unfolding to the functions of `Bmap`, `Tglist` and `Ibmap` with the values the evaluations give; loop invariant for `keys[i++]` |
| C193 | `Filelib.normalizepath` and `normalizepath_cstr` with a buffer of any size; specification `room`: the bytes written on the way, by components | the step invariant of C57 with a case for the full buffer; a second function on the same machine gives the largest size reached, equal to `room` |
| C194 | tlist's recursive functions with room for a given number of nested calls (`tlist_get_room` and so on), the generator of the priorities; specification: which items are on the way to an item, which can be seen from a gap, by comparing priorities | the tree is the Cartesian tree of the priorities (invariant over all calls); call depth as a function on trees, equal to the count of items on the way; the generator has full period (2-adic valuation of geometric sums); the average by symmetry: in a set of k positions each has the highest priority in 1/k of all arrangements, summed over the positions |
| C195 | `Held`: the lists of `Sblist` and `Tglist` with a count of successful `realloc` calls; pointers name the buffer they point into; `tlist` as in `Tlist`; specification: the last item seen at an index, the way of an item through a history | a call that does not reallocate leaves the buffer behind the items untouched; invariant over the history: the slot shows the last item that was at the index; a reallocation happens exactly when the count passes the capacity; for tlist the node addresses in order change like the items |
| C196 | `Mapptr`: `Bmap`, `Ibmap`, hbmap and tgilist with a count of the buffers their values have had; specification: the number of smaller keys, the way of an item or an entry through a history | for bmap the slot shows whatever has the same number of smaller keys, and is gone exactly after the number of entries passed the capacity; for tgilist and `BMAP_USE_TGILIST` invariant: the slot belongs to the item and is never reused; an hbmap history acts on a bucket as the calls with keys of that bucket |
| C197 | `Share`: the lookup macros of bmap and hbmap as steps between accesses to the member `tmp` of the map, threads interleaved at will; specification: the answer of a call that runs alone | invariant of the interleaving that says what `tmp` may hold at every step; for the other direction a schedule that brings any two calls together and lets one overwrite `tmp` of the other |
| C198 | `Crc` as before; polynomials over the field with two elements as in C101 | the register runs backwards (constructive inverse), so four bytes reach any state; linearity of the register; counting the powers of x modulo the generator shows which states zeros leave alone |
| C199 | `Md5`, `Sha512` as before | a context built from a digest and the padded length satisfies the invariant of C22/C24 for the padded data |
| C200 | new `Ssashare` over `Ssalloc`: every load and store of `top`, `avail` and a byte of `used` is a step, any number of threads, any order | a step repeated changes nothing, so two threads in step both get what one alone would get; explicit orders for the other failures; for calls that do not overlap, an invariant that the rest of a call is the rest of the sequential call |
| C201 | `Base64`; data of a text from its symbols and its padding | groups of four symbols and three bytes, the unused bits of the last symbol; decoding is deterministic, so two texts of the same data are compared through the encoder |
| C202 | `Stringptr.hash`, `Hashlist` | two adjacent bytes with the same effect in every state, so blocks of two letters can be chosen freely; for seven letters the hash is an addition and one fold, inverted explicitly |
| C203 | new `Sbshare`: every load and store of `count`, `capa`, `items`, every call of `realloc` and every byte copied is a step, any number of threads, any order; blocks have numbers and may be freed | what holds at each place of a call, relative to the items a thread may use; steps of threads that are apart keep it; without overlap it gives one history; explicit orders for the failures |
| C204 | `Rc4` | byte n of the key stream as a function of the state; the change of state is injective on a finite set, so it is periodic; two rounds worked out for the second byte |
| C205 | new `Spgrow`: stringptrs in a block of their own, pointers as block and offset, blocks that realloc moves or not | what the block holds after each call as an invariant of histories |
| C206 | `Stringptr`, `Sblist`, `Tglist` (existing): sizes taken modulo 2^64 where the code adds and multiplies `size_t` | what a call that did not fail must have had room for, against the size modulo 2^64 |
| C207 | `Hlshare`: threads on one hashlist; every load and store of a bucket pointer and every allocation is a step, inside a bucket the steps of `Sbshare` | invariant per bucket with an owner for every list; histories ordered by the ends of the calls; schedules built for the races; simulation of threads on one sblist |
| C208 | `Bashare`: threads on one bit array; a set is a load and a store of the byte | invariant (own bits as alone, a loaded byte is still the byte in memory) for one direction, a schedule built from any two conflicting calls for the other |
| C209 | `Stress`: the programs tests/sblist_test.c and tests/tglist_test.c for any data size, item number, block size, `rand` and allocator | one induction over the filling loop for both lists: either all items are there, or the first position after the failed reallocation holds a later item or nothing |
| C210 | `Kvmem`: the macros of stringptrlist.h and kvlist.h on the bytes of the sblist, with the strings in a memory that the program changes in between | the byte-level refinement of sblist, the layout of the entries, induction over the search and over the history |
| C211 | `Shactx`: any sequence of init, update and end on one context of SHA-512 or MD5, starting from any memory | a simulation by the blocks hashed, the buffer and the length seen since the last init; induction over the calls |
| C212 | `Guardhist`: any sequence of guard_alloc and guard_free on the page table of C73 | an invariant over the calls: the mappings in use, the pages left behind; arithmetic of page addresses |
| C213 | Optparser of C69 with any stringptr as name | a description of what an argument gives to any name (`Optany`), by cases on the dashes and the first equals sign; induction over the arguments |
| C214 | gettimestamp, getFileModTime (`Stopwatch`), Timelib of C75 | exact ranges by cases on every step; laps and waits by induction over the readings of the clock; sleeping from the theorem of C75 |
| C215 | addresses of items (`Aligned`) over Held, Ssalloc, Spgrow, Tlist | divisibility of offsets, which survives wrapping modulo 2^64; the set of node addresses of tlist from C195; histories of the allocator from C70 |
| C216 | histories of adds and `hashlist_next` on one iterator (`Hliter`) over Hashlist | invariant: position of the iterator, what has been returned, and for every bucket the items that came in time; induction over the history |
| C217 | `Ssaword`: the allocator with words of any size, the preprocessor's check, element sizes that are sums | as C70, C71 with whole words; determinism of the specification; divisibility |
| C218 | programs over the line readers (`Readers`): Fileparser, Wholefile, Stringptr, Stdin | from C49, C54, C55, C78, C190; uniqueness of cutting at a separator; counting bytes and line feeds |
| C219 | `Dialog`: a caller and a process joined by bounded pipes, as transition relations: copying, two outputs, process_close with unread output | invariants over all schedules, a decreasing measure, explicit schedules for the deadlocks; from C142 |
| C220 | `Saveread`: stringptr_fromfile as steps (stat, open, each read) among the steps of a process that saves (`Savers`) | refinement of the model of C78 without the other process; invariant that says what was read so far; schedules for every outcome; progress after the other has finished |
| C221 | `Rotate`: as `Follow`, but the file may get any other content between calls | exact results by what is behind the reader's place; relational: changes before that place are not seen; log rotation as corollary |
| C222 | `Tglist` (no new model): the calls at places that are not those of items | exact boundary of each call: the capacity for reading and writing, the number of items for deleting and inserting; size_t arithmetic of the move |
| C223 | `Rc4` (no new model): the table that the key schedule makes of a key | bijectivity by induction over the rounds; a key that fetches the wanted values one after the other; counting keys and tables (pigeonhole, divisibility by 3) |
| C224 | `Sortset`: programs that search an sblist before they add in order or delete | refinement of a table from keys to items over all histories; invariant: strictly ascending list; from C25, C27, C28 |
| C225 | `Coproc`: a caller that asks a process and waits for each answer, a process whose output is buffered, as a transition relation | invariants over all schedules, a decreasing measure, exact condition by divisibility; the test program of process.c as corollary |
| C226 | `Closein`: descriptor tables between a program's own close of fds[0] and process_close | invariant over histories of opening and closing; counting free descriptors below fds[0]; with the table of process_open as corollary |
| C227 | `Filelib` with `Spec/Normfs`: file systems with directories, files and links, and what a path names there | induction on following a path; for every path with `..` a file system is built in which it and its normal form differ |
| C228 | `Filelib.getpathdiff` with the file systems of C227 | the two paths lead to the components of their normal forms; for the escape the components are followed step by step; with links as C227 |
| C229 | `Text.findword`, `strstr_uc` | an attempt to match cannot pass a separator, so a match behind one is reached; for words of one character a text is built |
| C230 | `Logread`: log_put for a list of messages, and splitting the file with stringptr_splitc | the file is the join of the texts; uniqueness of splitting at a character; counting newlines |
| C231 | `Carry`: base64enc, base64dec, stringptr_splitc and the INI lookup together | the alphabet of the texts, exactly; the pieces end in a zero byte, so that base64dec can work on the pointers; C01, C146, C230 |
| C232 | `Stamps`: time stamps as texts to be sorted and compared (model of C65) | order and injectivity of digits of fixed width; the lexicographic order of the fields |
| C233 | `Search`: the scan of strstr_uc and strstar (model of C15) | the places tried form a chain; the result is the only match on it; a text for every pattern that can be missed |
| C234 | `Escape`: sequences of calls of stringptr_replace (model of C51) | splitting at the inserted text gives the pieces back; an invariant of the escaped text (every mark is followed by a letter already used) |
| C235 | `Handles`: the system calls and allocations of the functions for whole files, for any answers of the system | all calls lie between `open` and `close` of one descriptor (by induction over the loops); counting blocks |
| C236 | `Settings`: programs over Iniparser, Fileparser, Wholefile, Stringptr | from C54, C66, C67, C78, C49; settings of a prefix of the lines; the text of the lines of a file |
| C237 | tgilist without a limit on the number of calls (`Tglist`, unsigned index type) | refinement of a list of references modulo 256^w into a growing array (invariant `WRep`) |
| C238 | `hbmap_foreach` with a body that inserts (`Mapins`) | loop invariant: every key of the map is ahead of the loop, has been read, or was inserted behind it; measure: entries ahead plus insertions left |
| C239 | `base64enc_str`, `base64dec` when they fail, and a loop that encodes through a small buffer (`Base64small`) | induction over the loops of C01-C04 with the contents of the buffer in the invariant |
| C240 | tables of `rc4` after any number of bytes (`Rc4cycle`) | the short states are closed under the inverse step; explicit form of the table after n steps of a short cycle |
| C241 | a caller that reads a number from a settings file (`Setnum`) | composition of C236 and C186; the value of a decimal numeral followed by a carriage return |
| C242 | `stringptr_splits` of joined texts, `stringptrlist_tostring_dos` (`Joinsplit`) | an occurrence that straddles the end of a text gives a border of the delimiter; conversely a border gives two texts |
| C243 | `stringptr_linesplit` and `stringptr_chomp` of every entry (`Doslines`) | induction over the entries with the buffer before and behind them; uniqueness of splits |
| C244 | two calls of `stringptr_replace`, the second with swapped texts (`Swapback`) | a split of joined pieces is the splits of the pieces if the delimiter cannot overlap itself; then counting, or comparing in place for texts of equal length |
| C245 | one call of `stringptr_replace` and what is left of the pattern (`Onepass`) | induction over the split; counting lengths; a string in which the pattern is nested in itself |
| C246 | the loop `while(stringptr_contains(s, what)) s = stringptr_replace(s, what, whit)` (`Scrub`) | the length falls in every round; if the replacement contains the pattern the pattern stays, until the size overflows |
| C247 | `stringptr_splitc`, `stringptr_splits`, `stringptr_rchr` (`Onechar`) | the two loops make the same steps; induction over the pieces for the last one |

Properties whose English form states that the code does *not* deliver something documented (C10, C11,
C15, C16, C29, C30, C33, C34, C39, C42, C43, C50, C54, C56, C59, C64, C71, C73, C81, C84, C85, C89-C93,
C99, C102, C104, C106, C108, C111, C114, C116, C118-C121, C123, C124, C126, part of C127, C129, part of C131, C133-C135, part of C136, C138, parts of C140-C143, C144, part of C145, C147, parts of C148, C149, C151, part of C152, C153, C155, C159, C161, parts of C162, C163, C165, C166, C168, parts of C169 and C170, C171, parts of C173, parts of C175 and C176, C177, parts of C178, C180, C181, C182, C183, C184, C185, C186, parts of C187-C190, C192, part of C193, parts of C195-C198, C199, parts of C200-C209, parts of C211-C213, C215-C223, parts of C224-C239, C241-C246) are proved as negative statements with an exact boundary or witness.

## 5. What is modelled

| source | model |
|--------|-------|
| src/strlib/base64*.c | Base64, Overlap |
| src/strlib/{raw2hex,hex2raw,hexval}.c | Hex, Overlap |
| src/strlib/rc4.c | Rc4 (Rc4stream, Rc4keys: theorems only), Overlap |
| tests/rc4_test.c (with an argument) | Saber |
| tests/sha512_test.c | Shatest |
| tests/{sblist_test,tglist_test}.c | Stress |
| src/strlib/{numberToString,conv_cypher,u?int(64)ToString,utoa,itoa,strtoint,strtoint64}.c | Numbers |
| src/strlib/{is*,make*,strends,strstar,strstr_uc,findword,containsChar,strdup_n}.c, include/strswitch.h | Text |
| src/strlib/{stringfromipv4,ipv4fromstring,isnumericipv4}.c | Text (proofs in Ipv4) |
| src/sblist/*.c, include/sblist.h | Sblist, Alias (own items as arguments), Fromdata (existing memory), Iter (loops), Cost (numbers of comparisons, buffer sizes), Held (pointers kept), Sbshare (threads), Aligned (alignment) |
| src/tlist/tlist.c | Tlist, Balance (with a limited stack), Held (pointers kept), Aligned (alignment) |
| include/tglist.h, include/tgilist.h | Tglist, Tgisigned (signed index types), Alias (expressions over the list), Iter (loops), Cost (numbers of comparisons, buffer sizes), Macroarg (arguments with side effects), Held (pointers kept), Mapptr (pointers kept), Outside (places outside), Share (lookups by several threads) |
| include/bmap.h, include/hbmap.h | Bmap, Multimap (blind insertions), Ibmap (`BMAP_USE_TGILIST`, bmap_fini), Mapdel (loops that delete), Own (memory, hbmap_new), Macroarg (arguments with side effects), Mapptr (pointers kept) |
| tests/tlist_test.c (as a program over any of the list types) | Anylist |
| src/hashlist/*.c | Hashlist, Hlshare (threads), Hliter (adding while iterating) |
| src/stringptr/*.c, src/stringptrlist/*.c, src/kvlist/kvlist.c | Stringptr, Wholefile, Fileparser, Output, Savers (saving step by step), Saveread (reading at the same time), Stdin (read_stdin_line in a loop), Spgrow (with stringptr_grow and stringptr_free of include/stringptr.h) |
| src/crc32/*.c | Crc, Crcinit (proofs also in CrcErrors, CrcPoly, CrcForge) |
| src/md5/*.c | Md5 |
| src/sha512/sha512.c | Sha512; Shatest (crypto_hash); Shactx (calls on one context) |
| src/filelib/*.c | Filelib, Wholefile, Tempdirs (concurrent mktempdir), Stopwatch (getfilemodtime.c), Normfs (what a normalized path names), Confine (requests within a directory) |
| src/fileparser/*.c | Fileparser, Fpio (any answers of read and lseek), Follow (a file that grows), Rotate (a file that is replaced), Readers (compared with the other ways to read lines) |
| src/iniparser/*.c | Iniparser, Inifile (with examples/iniparser_test.c), Nextsec (with tests/iniparser_test_nextsection.c) |
| src/optparser/*.c | Optparser, Optany |
| src/format/*.c | Format, Output |
| src/logger/*.c | Output, Writes (calls of `write`), Logread (reading a log) |
| src/timelib/*.c | Timelib, Stopwatch |
| src/proclib/*.c | Proc, Wait (exit status), Family (several processes), Dialog (what goes through the pipes), Coproc (questions and answers), Closein (descriptors) |
| include/strswitch.h (all classes) | Charclass |
| src/filelist/filelist.c | Filelist |
| include/{bitarray,endianness}.h | Bitarray, Bashare (threads), Endian (both byte orders) |
| include/ssalloc.c, include/guard_alloc.c | Ssalloc, Ssatest (with DEBUG, and tests/ssalloc_test.c), Ssaword (other settings), Ssashare (threads), Guard, Guardhist |
| examples/{hex,diff,crc32_printer,find_identical_files}.c | Programs |
| examples/{fileparser_test,stringptr_test1}.c | Linecat |
| tests/{bmap_bench,hbmap_bench}.c | Bench, Strmap and Hstrmap (the comparison), Subcmp (`intcmp`, `test_bmap_int` of bmap_bench.c) |
| examples/find_identical_files.c (process_path, main) | Samefiles |
| examples/filelist_find_test.c, filelist_find_test2.c | Listfiles |
| src/filelib/normalizepath_cstr.c with PSPLIKE_PATH | Psp |
| src/filelib/normalizepath_cstr.c with the output in the buffer of the path | Inplace |
| src/sblist/*.c, src/hashlist/hashlist.c, src/stringptrlist/stringptr_replace.c, src/filelist/filelist.c (memory) | Life |
| examples/codedup.c | Codedup |
| include/{stringlist,sptrlist}.h, src/sblist/{sblist_sort,sblist}.c (free), src/stringptrlist/stringptrlist_freeall.c | Stringlist |
| include/{stringptrlist,kvlist}.h | Kvmem |
| src/fileparser/fileparser_{open,close}.c (descriptors), src/optparser/op_printall.c, include/stdio-repl.h | Misc |

Simplifications beyond section 2, module by module (each is also stated at the definition):

* **Stringptr**: which blocks `stringptr_replace` leaks is left to Life. `memcpy`/`memcmp` with size 0 and a null pointer are no-ops.
* **Filelib**, **Psp**: forming the pointer `out - 1`
  in normalizepath_cstr is not counted as undefined behaviour.
* **Optparser**: the combined form `-ltp` the header mentions has no code, hence no model.
* **Fileparser**, **Fpio**: a regular file that does not change while it is read (in Follow it grows); Fileparser assumes that `read`
  and `lseek` succeed in full, Fpio does not.
* **Ssalloc**: the default configuration (`uint8_t` lengths); the `DEBUG` abort is in Ssatest.
* **Format**: a `va_list` is a typed list of arguments, a mismatch is undefined behaviour; `destsize` is at
  most the size of the object.
* **Output**: `write` transfers everything; `localtime_r` succeeds.
* **Timelib**, **Guard**, **Proc**: `nanosleep`, `mmap`/`munmap`/`mprotect`, `posix_spawn` by their POSIX
  contract; close-on-exec flags are not modelled.
* **Wholefile**: the answers of `read`/`write` are an arbitrary list; closing the descriptor is in Handles.
* **Savers**: `open` and every `write` are atomic with respect to each other; what a crash of the whole machine makes of data not yet on disk is not modelled (no function calls `fsync`).
* **Filelist**: `glob` is an arbitrary function; which blocks are leaked is left to Life.
* **Life**: `malloc`/`realloc`/`free` by contract: addresses are not used again, `realloc` always moves. Only the
  addresses and numbers of items are modelled for lists; sizes of items and blocks are positive.
* **Tgisigned**: converting an index that is out of range to the signed type keeps the low bytes (implementation-defined in ISO C).
* **Own**: as Life; where an item is inserted and whether a key is found is left to the history, for every comparison and hash function.
* **Family**: the children exit at the end of their standard input and do not close or pass on inherited descriptors; the exit status and output are not modelled.
* **Crcinit**: stores and loads of table entries and pointers are atomic and seen by all threads at once.
* **Overlap**: the compiler keeps the order of loads and stores of the source (the pointers have character type, which may alias).
* **Saber**: NDEBUG is not defined; the branch of `main` without an argument (fixed vectors) is covered by Verif/Tests.lean only.
* **Shatest**: the file does not change while it is read; the arrays with indeterminate content are lists of arbitrary bytes; `srand`, `rand` are an arbitrary function.
* **Fromdata**: in C174 `realloc` keeps its meaning from Mem; C175 looks at addresses only.
* **Nextsec**: the allocations of the list of lines succeed; freeing at the end is not repeated (Own).
* **Iter**: loop bodies are functions that read the item, then change the list and the loop variable; the loop variable has type `size_t` or `ssize_t` (the macro with a predeclared variable allows other types).
* **Strmap, Hstrmap**: strings are given without terminators; `strcmp` and `bsearch` by contract.
* **Stdin**: `fgets` by contract, without read errors; for sizes below 2 it does what glibc and musl do.
* **Cost**: the comparison gets its state with every call and returns the new one; it does not change the list (comparisons that do are not modelled). `realloc` to another size counts as a new buffer.
* **Macroarg**: an argument is a function from a state to a value and a new state; each textual use runs it. Where C leaves the order of evaluation open (two uses without a sequence point, `hbmap_delete(m, it++)`) nothing is modelled.
* **Subcmp**: `bsearch` by contract: if all comparisons with the key are defined and agree with the order of the array, it finds an equal element or none; `rand()` of the test is any list of numbers below `N`, and the sum of the values is left out.
* **Bench**: `strdup` succeeds; the addresses allocated are given at the end, the calls of malloc are not followed; `rand` is arbitrary; the functions `test_bmap_int`, which are not called, are left out here (for bmap_bench.c it is in Subcmp).
* **Linecat**: `puts` by contract; an errno is not 0.
* **Held**: every successful `realloc` gives a new buffer, as ISO C has it, also where an implementation would extend the old one in place.
* **Mapptr**: the number of buffers is counted by changes of the capacity, which the code changes exactly when `realloc` succeeds; new buffers as in Held.
* **Share**: loads and stores of `tmp` are atomic and seen by all threads at once (ISO C calls them a data race); keys that were looked up stay in memory; the `|=` of `hbmap_find` is a load after the search and a store; the value of an assignment in `bmap_get` is not read back.
* **Ssashare**: as Share; the accesses are those the source shows, in source order; `p->top++` and `p->avail--` are a load and a store, the two `BA_SET` macros a load and a store of the byte.
* **Sbshare**: as Ssashare; `l->count++` and `l->capa += ...` are a load and a store, `memcpy` and the copying of an item by the caller go byte by byte upwards; `realloc` is one step; block numbers are not reused, so a stale pointer is never valid again by chance; block 0 is NULL; of the calls, `sblist_add`, `sblist_set` and `sblist_get` followed by a copy.
* **Hlshare**: as Sbshare; `hash % bucketcount` and `datasize` are not steps of their own since they never change; each sblist object has its own heap, as blocks of different lists never meet; of the calls, `hashlist_add` and `hashlist_get` followed by `sblist_get` and a copy.
* **Bashare**: a set is a load and a store of one byte, each atomic; `BA_GET_SWAPPED` is a `BA_GET` of another index.
* **Stress**: the results of `rand` and of the allocations are functions of the round; the size of the block `disturber` does not matter, its first byte is arbitrary; `atoi` is applied before; frees at the end are left out.
* **Kvmem**: entries are 16 or 24 little-endian bytes; memory is a partial function from addresses to bytes, `memcmp` reads all its bytes; `kv_find` and `stringptrlist_find` with non-NULL arguments (NULL: C44, C43); the buffer of the list is not part of the memory that the program changes.
* **Shactx**: a context is its three fields, without padding; uninitialised bytes have some value (reading them is not an error in the model); the result of `sha512_end` is the field `h` at the time of reading.
* **Guardhist**: guard_free is called with the size of the allocation (other sizes: guard_free_other_size); the system maps only unmapped pages and does not use page 0 where the statement says so; sizes for which the length of the mapping wraps are those of C73.
* **Stopwatch**: the readings of the clock are given; the programs around the calls (laps, waits, the rule as in make) are the model's; `stat` gives whole seconds.
* **Aligned**: `malloc` and `realloc` return multiples of 16 (x86-64 ABIs) where the statement says so; addresses of buffers are an arbitrary function of their number.
* **Hliter**: one iterator; allocations succeed (the API has no call that removes items).
* **Ssaword**: accessing the bytes of the bit array as words is not counted as undefined behaviour; alignment is stated by addresses; `SSA_ELEMSIZE` as a sum of two constants.
* **Readers**: the same simplifications as Fileparser, Wholefile, Stringptr and Stdin; the list of pieces can always grow.
* **Dialog**: pipes hold a fixed number of bytes; the caller and the process write byte by byte; the process reads what is there up to the size of its buffer, writes all of it before it reads again, and does not ignore SIGPIPE; the caller does not wait for more bytes than the process writes.
* **Saveread**: one process saves, one reads; `open` succeeds for both; each system call is atomic; between `stat` and `open` the name stays with the same file.
* **Rotate**: a change of the file happens between two calls of the reader, not between the `read` and the `lseek` of one call; `read` and `lseek` do not fail.
* **Outside**: the end of the place, `(pos+1)*sizeof(item)`, is below 2^64, so that `items[pos]` does not wrap.
* **Sortset**: the programs around the calls are the model's; the comparison function has no state.
* **Coproc**: a question fits into its pipe and is read as a whole; the process writes full buffers, or all it holds when it flushes or at the end of its input; standard error is not used.
* **Closein**: as Proc; `open` gives the lowest free descriptor; the program closes only files that it opened.
* **Normfs**: no model of its own (Filelib); file systems are a specification: directories, files and links, without permissions, mount points, limits on links or names, and other processes.
* **Confine**: as Normfs; the test of the result is that of a program that follows the comments of getpathdiff.c.
* **Words**: no model of its own (Text).
* **Logread**: every write writes all its bytes; the list has memory enough.
* **Carry**, **Stamps**, **Search**: nothing beyond the models they combine.
* **Escape**: memory is granted; the strings end in a zero byte.
* **Handles**: only the calls, not the bytes (for these see Wholefile and Fpio; `handles_same` ties the two); reallocations of the list's own array are not counted as blocks; a failed `close` counts as closed.
* **Mapins**: the body of the loop is a function from what has been read so far to a list of insertions; it does not delete entries or change the iterator.
* **Base64small**: the loop that encodes through a small buffer is a caller of the library, not code in it; `fputs` is taken to succeed.
* **Rc4cycle**: the states of the loop without the reads from `src` and writes to `dst`.
* **Setnum**: the caller that passes the value to `strtoint` is not code of the library.
* **Doslines**: the loop over the entries is a caller, not code of the library.
* **Scrub**: the loop is a caller, not code of the library; it does not free the strings of earlier rounds.
* **Settings**: the same simplifications as Fileparser, Wholefile, Stringptr and Iniparser; the list of pieces can always grow, and writing does not fail (C96 for failing writes).
* **Spgrow**: a pointer is a block and an offset; a moved block has a new number that is never used again; the members of the structure are kept apart from the bytes of the block and are lost when any of their 16 bytes is cut off; reading no bytes through a bad pointer is allowed.
* **Balance**: the stack is counted in nested calls of the recursive functions; `hang` stands for its overflow. Frames of other functions are not counted.
* **Inplace**: one iteration of the loop is taken as a whole, since its only write comes after its reads; without PSPLIKE_PATH.
* **Tempdirs**: `mkdir` is atomic; directories are removed only by the process that got them.
* **Codedup**: allocations succeed, the containers are lists and a list of entries (their properties are
  C36, C40, C41, C83); the progress line on SIGALRM is not modelled.
* **Listfiles**: allocations succeed, except that of the path in the first program; freeing is not modelled.
* **Programs**, **Samefiles**: `fopen`/`fread` by contract without read errors; allocations succeed.

## 6. What is not modelled

* examples/optparser_test.c (it calls a function that does not exist).
* tests/*.c except for the test vectors in Verif/Tests.lean, rc4_test.c, sha512_test.c, guard_alloc_test.c (its expectations), sblist_test.c, tglist_test.c, iniparser_test_nextsection.c, the calls of tlist_test.c and ssalloc_test.c, `test_bmap` of bmap_bench.c and hbmap_bench.c, `test_bmap_int` of bmap_bench.c; the build system.
* include/macros.h apart from MIN and MAX (Macroarg), include/restrict.h and pure declarations in headers.
