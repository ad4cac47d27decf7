# Formal model of DronMDF/goost in Lean 4

`/repo/goost` is a C++17 library with three parts: `magma` (64-bit cipher, ECB, CFB, OMAC),
`gost89` (CFB and MAC of GOST 28147-89) and `kuznyechik` (128-bit cipher, CTR, OMAC). Every
function in `goost/` that does something (each `.cpp`, and the templates in the headers) is
modelled, one definition per function or loop, under `lean/Verif/Model/`. Every definition cites
the file and lines it models, and says where it simplifies.

## Layout

| directory | content |
|----|----|
| `Verif/Model/` | the code |
| `Verif/Spec/` | what the properties are stated in: the standards, contracts of streams, ideal caches and histories; nothing here refers to how the code works |
| `Verif/Props/` | the property theorems `Cnn_…`, and beside each an `example` that its hypotheses can be met |
| `Verif/Lemmas/` | helper lemmas |
| `Verif/Tests.lean` | test vectors of the standards, checked against model and specification (tests, not proofs) |

A theorem named `…_partial` proves only a part of its property; what is missing is said in its
comment. Where the code violates a property there is a theorem that says so, for all inputs of the
offending kind or with a witness.

## The model

### Outcomes (`Model/Exec.lean`)

* `Exec α` is the outcome of a call: `ok a`, `throw e` (a C++ exception), `ub u` (undefined
  behaviour, with its kind: out-of-bounds read or write, null dereference, dangling pointer,
  over-wide shift, uninitialised variable, misaligned load, …) or `diverge` (a loop has used up
  its step budget). Undefined behaviour is an outcome which theorems have to exclude or exhibit;
  it is never assumed away.
* `Io W α` is `W → Exec α × W`: a call in an arbitrary outer world `W`. Changes of the world
  survive exceptions. Sources and sinks supplied by the user are arbitrary functions into `Io W`
  over an arbitrary type of objects, so theorems hold for files, pipes, memory, failing devices.
* `while` loops whose end depends on a stream carry a step budget (`fuel`); theorems hold for every
  budget that is large enough, with the bound stated.
* Words are `BitVec 8/32/64`, `std::vector` is `List` with checked access, `std::string` is
  `List Char`, `size_t` is `Nat`, `int` is `Int` or `BitVec 32`.
* `Machine` says what the target does in two places where ISO C++ has undefined behaviour but real
  targets are known: 32-bit shifts by 32 or more (`maskShift32`) and 64-bit loads from unaligned
  addresses (`unalignedLoad`). `Machine.iso` has both undefined, `Machine.x86` both defined.
  Theorems are for every `Machine` unless they say otherwise.

### Objects

* Block objects (`magma::Block`, `kuznyechik::Block`) are trees (`Magma.Blk`, `Kuz.Blk`): an object
  holds other objects, and `value()` evaluates the tree. A block class of the user is a leaf with an
  arbitrary outcome.
* Keys, key data and substitutions are functions; a key also has the flag `isLazy`, which is what
  the `dynamic_pointer_cast<const LazyKey>` in the stream classes finds out.
* `KeyCachedData` and `BlkCached` have mutable caches. They are modelled three times: as functions
  of a cache state (`C10`, `C41`, `C105`), as threads over shared caches (`Model/Threads.lean`, `C11`,
  `C58`), and as arbitrary programs of arbitrarily many threads, one load or store at a time
  (`Model/Concurrent.lean`, `C65`, `C66`; with store buffers `Model/WeakMemory.lean`, `C113`; with old values and a
  mutex `Model/Mutex.lean`, `C117`; the streams of threads that share a key
  `Model/SharedStreams.lean`, `C122`; memory that runs out `Model/ScarceThreads.lean`, `C123`). Elsewhere they are replaced by their values, which is
  what C10 and C41 justify.
* Iterators of `kuznyechik` are state machines `IterImpl`; `Session` is the history of handles on a
  `StMemory` and its iterators, with destruction (C49).
* `Model/Memory.lean` models the objects as cells with reference counts that hold each other by strong
  pointers, and iterators their stream by a weak one; a program makes objects and copies, passes on and
  destroys pointers in any order (C99). Which values the objects have is left out there. `Model/Release.lean`
  records how deeply destructors are nested when a pointer is destroyed (C115). `Model/Share.lean` has several
  threads that do this at once, with a possible switch after every operation on a reference count (C116). `Model/Bare.lean` has
  streams of words that no `shared_ptr` owns (C118).
* `Model/Sizes.lean` is the memory stream with positions of type `size_t` (C101), and the iterated keys with numbers of type `int` (C91).
* `Model/Locale.lean` reads the texts of keys and blocks with the locale as a parameter (C120).
* `Model/KuzLive.lean` has the kuznyechik MAC and CTR stream once more, over iterators that are actions on the
  outside world (C107).
* `Model/Live.lean` has the magma and gost89 streams and MACs once more, with keys, key data and
  substitutions that are actions on the outside world: caches, tokens, files (C105, C106).
* `Model/KuzToken.lean` has the blocks, keys, counter mode and MAC of the 128-bit cipher with user blocks that
  act on the outside world, and with the caches as state.
* `Model/Scarce.lean` has the same streams and MACs with a budget of allocations: each request for memory
  may be the one that is refused (C108). `Model/ScarceKuz.lean` is the same for the 128-bit cipher (C110),
  `Model/ScarceLive.lean` for keys of the 64-bit cipher that have a cache (C114).
* `Model/UserContainer.lean`: containers of the user, whose functions are actions on the outside world (C103).
* `Model/Reenter.lean`: blocks and key data of the user that use other objects, or the same one, while they are
  being asked (C126).
* `Model/Views.lean`, `Model/MagmaViews.lean`: programs that make objects from each other, change the data
  behind them and ask for values, in any order (C127, C128). `Spec/Rekey.lean`: programs that change the key of a
  stream between its calls (C129).
* `Model/Recorder.lean`, `Model/Leak.lean` and `Model/Work.lean`: how often and how deeply `value()` is called
  within an evaluation, which table entries are accessed and which branches are taken (C36, C62, C88, C89).
* Layers (`Model/Layers.lean`) are stacks of sinks or sources of any depth (C57).

### Specifications

* `Spec/Magma`, `Spec/Kuznyechik`, `Spec/Modes`: GOST R 34.12-2015 and 34.13-2015 and
  GOST 28147-89 over plain `BitVec 64` and `BitVec 128`, written from the standards (RFC 8891,
  RFC 7801), independently of the code. `Spec/Gf`: bytes as Mathlib's polynomials
  over `ZMod 2`, multiplied modulo x^8+x^7+x^6+x+1.
* `Spec/Bytes`: byte order and division of data into blocks. `Spec/Keys`: what it means for a key to
  be usable, histories of calls.
* `Spec/Streams`: contracts of sources (`Supplies`, `SuppliesBlocks`) and sinks (`Collects`),
  histories of writes and reads. `Spec/KuzStreams`: `Shows it n i blocks`, the contract of
  iterators. `Spec/Failures`: streams that fail at a chosen operation, retries, data that arrive
  over time.
* `Spec/Vectors`, `Spec/VectorsModes`: the specifications give every published value of the
  examples of the two standards (round functions, round keys, blocks, ECB, CTR, CFB, MAC), checked by
  the kernel. They are checks of the specifications, not properties of the code; `Props/Vectors`
  shows that the model of the code gives the same values. `Props/RepoTests` states every unit test of
  the repository (`/repo/test`, `test_package/example.cpp`) about the model; the kernel checks that
  they all pass. These are checks that the model reads the code rightly, not properties.
* `Spec/ByteOrder`, `Spec/VectorsOrder`: what a machine of either byte order sees in memory (C90).
* `Spec/Numerals`: a grammar of what the library functions read as a number (C97). `Spec/Diffusion`,
  `Spec/Alternate`, `Spec/Memory`: differing bytes, every other member of a list, reachable objects.
* `Spec/Caches`, `Spec/Concurrent`, `Spec/Layers`: sharing of caches, fair schedules, programs run
  alone, ideal layers. `Spec/Differences`, `Spec/MagmaDifferences`: differences, parities and keys
  to count over (C131, C132). `Spec/EvenPermutations`: exchanges of two elements (C133).
  `Spec/Hiding`: bijective substitutions (C134).
  `Spec/RandomTables`: keys that look words up in tables, and questions that depend on earlier answers (C135).
  `Spec/ManyScarce`: several keys while memory runs out (C136).
  `Spec/Copies`: the program without copies (C137).

## Trusted base

* Lean 4.33.0's kernel, and the axioms `propext`, `Classical.choice`, `Quot.sound` at most (per
  theorem at the end of this file). No axioms of our own, no `sorry`, no compiled evaluation. The
  few `decide` steps go through the kernel; where one is part of a proof it covers a whole finite
  table (a 256-entry S-box, the 16 coefficients of the linear layer) and is lifted by a lemma.
* That the model reads the C++ rightly. The code has not been run.
* Facts about the target that are built in: little-endian byte order (except in C90);
  `std::pair<uint32_t,uint32_t>` and `std::pair<uint64_t,uint64_t>` are stored first-then-second
  without a gap (`memcpy` from `&e.first` in `ECBSource::read`, `reinterpret_cast<uint8_t*>(&value)`
  in `BlkS::value`); reading `uint8_t` storage through `uint32_t*` or `uint64_t*` (strict aliasing)
  behaves as a byte-wise load; buffers on the heap are aligned for 8-byte loads; `uint32_t` to `int`
  is modular; the "C" locale (except in C120); one digit test for the characters of a text (ASCII).
* `ECBSource(source, container)` calls a member function before the object is constructed. This is
  undefined in ISO C++ but touches no member; it is modelled as a plain call.
* Threads are interleaved sequentially consistently, in C113 with store buffers, in C117 with loads of old values. Programs with a data race have no meaning in
  C++; C11, C58, C65 and C66 therefore state the absence of races separately, and show that there
  are races.

## What is not modelled

* Failure of memory allocation inside the library's `vector` and `string` other than by an exception of the
  statement that uses them (C108, C110, C114), exhaustion of the stack (its use is measured instead: C36, C62, C63, C115), sizes of 2^64 and more, processors and
  compilers that let a load see a store that comes later in the program (C113 covers delayed stores, C117 old values).
* Objects on the stack or with static storage in the models of lifetimes (C99, C116): they are as objects with one pointer
  that is not copied. For `StMemory`, where it makes a difference, see C118.
* Time, and side channels other than the table accesses and branches of C89.
* The build system and the unit tests, except for the helpers of the tests named in the table.

## Properties


| id | property | status | modelled by | proof |
|----|----|----|----|----|
| C01 | Magma decryption inverts encryption | proved | `Magma.Blk` trees of BlkEncrypted, BlkDecrypted; any key | inversion of each half round |
| C02 | The two magma encryptors agree | proved | EncryptionBase, BlkEncrypted | the same 32 monadic steps, outcomes equal including failures |
| C03 | Magma conforms to GOST R 34.12-2015 | proved | LazyKey from text, SboxR3412 | equality with `Spec.Magma` |
| C04 | Magma encryption under a fixed key is a permutation | proved | as C01 | from C01 |
| C05 | S-box layer is nibble-wise substitution, twisted is a rotation by 11, and R3412 is a bijection | proved | SboxNibble, SboxTwisted, SboxR3412 | nibble by nibble; each row of the table a permutation |
| C06 | Packed 64-byte S-box is equivalent to eight nibble tables | proved | SboxByte, SboxByte64Tab | bit by bit, for arbitrary tables |
| C07 | All ways of supplying a magma key agree | proved | KeyDataString, KeyDataNative, containers | byte order and digits round trip |
| C08 | Hex round keys are parsed exactly and wrong sizes and indices are rejected | proved | KeyDataString | correctness of the digit parser |
| C09 | Malformed hex key material is rejected | partial | KeyDataString | witnesses; general theorem on what is accepted |
| C10 | Magma key caching is unobservable | proved | KeyCachedData with its cache, over an arbitrary oracle | invariant over histories |
| C11 | Sharing a magma key between threads | partial | threads over one cache, any number | invariant over schedules; the race |
| C12 | ECBSink writes the ECB ciphertext | proved | ECBSink over any sink | induction over the data |
| C13 | ECBSink rejects unaligned writes with no effect | partial | ECBSink | case analysis; the blocks written before the exception |
| C14 | ECB chunking independence | proved | ECBSink, any division | C12 over concatenation |
| C15 | ECBSource decrypts what ECBSink encrypted | proved | ECBSource over any source of blocks | C12 and the invariant of read |
| C16 | ECBSource read sizes | proved | ECBSource | invariant of read over any history of sizes |
| C17 | ECBSource handles truncated ciphertext safely | partial | ECBSource | undefined behaviour exhibited |
| C18 | CFBSink writes the GOST R 34.13 CFB ciphertext | proved | CFBSink over any sink | loop invariant (register, tail) |
| C19 | CFBSink chunking independence | proved | CFBSink, any division | C18 over concatenation |
| C20 | CFBSink holds back fewer than 8 bytes | proved | CFBSink | from C18 |
| C21 | CFBSink finalize flushes the tail | partial | CFBSink::finalize | undefined behaviour exhibited; the case without a tail |
| C22 | CFBSource read contract | proved | CFBSource over any source of blocks | invariant of read over any history of sizes |
| C23 | Magma CFB round trip | proved | CFBSink, CFBSource | C18, C22 |
| C24 | CFBSource handles a short final block safely | partial | CFBSource | undefined behaviour exhibited |
| C25 | CFB self-synchronisation | proved | CFBSource | C22 and the CFB recurrence |
| C26 | CFB error propagation | proved | CFBSource | C22 and the CFB recurrence |
| C27 | GOST 28147-89 CFB sink | proved | gost89 CFBSink | as C18 |
| C28 | GOST 28147-89 CFB round trip | proved | gost89 CFBSource | as C22, C23 |
| C29 | GOST 28147-89 imitation insert | proved | DataImit, ImitedBlock | induction over the blocks |
| C30 | Any single-block change changes the gost89 MAC | proved | DataImit | 16 rounds are injective |
| C31 | gost89 MAC zero padding | proved | DataImit | C29 |
| C32 | Magma MAC conforms to GOST R 34.13 OMAC | proved | magma Imit over any source | loop invariant over the block tree |
| C33 | Magma MAC computation is free of undefined behaviour | partial | magma Imit, BlkShifted | undefined behaviour exhibited for `Machine.iso`; all machines that mask |
| C34 | Magma MAC separates messages with partial final blocks | partial | magma Imit | C32; separation of the last-block keys |
| C35 | Any single-block change changes the magma MAC | proved | magma Imit | C32; the cipher is a permutation |
| C36 | Magma MAC recursion depth is bounded | partial | depth of the block tree | linear lower bound |
| C37 | Kuznyechik conforms to GOST R 34.12-2015 | proved | BlkEncrypted, BlkIterKey, Key, BlkS, BlkL, BlkR | byte-level equality with `Spec.Kuznyechik` |
| C38 | Kuznyechik encryption under a fixed key is a permutation | proved | as C37 | each layer is injective |
| C39 | gmul is multiplication in GF(2)[x]/(x^8+x^7+x^6+x+1) | proved | BlkR: gmul | `AdjoinRoot` of the polynomial |
| C40 | Kuznyechik linear layer is linear and invertible | proved | BlkL, BlkR | linearity over GF(2); explicit inverse |
| C41 | Kuznyechik round-key caching is unobservable | proved | evaluation with a store of caches | invariant of the store over any history |
| C42 | Kuznyechik rejects keys that are not 64 hexadecimal digits | partial | kuznyechik KeyDataString, BlkString | witnesses; what is rejected |
| C43 | BlkIncremented is increment modulo 2^128 | proved | BlkIncremented | arithmetic modulo 2^128 |
| C44 | CTR stream conforms to GOST R 34.13 | proved | StCTREncrypted over any stream | iterator invariant |
| C45 | CTR is an involution | proved | StCTREncrypted twice | C44 |
| C46 | CTR keystream does not repeat | proved | StCTREncrypted | counters differ, the cipher is injective |
| C47 | StMemory iteration enumerates the data | proved | StMemory | induction over the position |
| C48 | StMemory handles every vector safely | partial | StMemory | undefined behaviour exhibited |
| C49 | Iterators keep their stream alive | partial | StMemory iterators, `Session` | invariant over histories of handles; undefined behaviour exhibited |
| C50 | Kuznyechik MAC conforms to GOST R 34.13 OMAC | proved | kuznyechik Imit over any stream | loop invariant |
| C51 | Any single-block change changes the Kuznyechik MAC | proved | kuznyechik Imit | C50; the cipher is injective |
| C52 | Kuznyechik BlkShifted is a 128-bit left shift | partial | kuznyechik BlkShifted | bit by bit |
| C53 | Hex block text round trip | proved | BlkString (both) | digits round trip |
| C54 | BlkRaw constructors agree | proved | BlkRaw (both) | bit by bit |
| C55 | BlkXored is bitwise XOR for any number of operands | proved | BlkXored (both) | induction over the operands |
| C56 | Any Key implementation works with the stream classes | partial | keys that are not LazyKey | undefined behaviour exhibited; classes that take any key |
| C57 | Layered sinks and sources compose | proved | two layers; `Layers` of any depth | contracts are preserved by each layer; induction over the stack |
| C58 | Sharing a kuznyechik BlkCached between threads | partial | threads over one BlkCached | invariant over schedules; the race |
| C59 | ECBSource never delivers raw ciphertext | partial | ECBSource | case analysis of the short last block |
| C60 | Magma BlkShifted is a left shift of the 64-bit block | partial | magma BlkShifted | bit by bit, per machine |
| C61 | Kuznyechik encryption is free of undefined behaviour | partial | BlkR: the load of a shifted block | undefined behaviour exhibited; all machines that allow the loads |
| C62 | Kuznyechik MAC evaluates in bounded stack | partial | depth of the block tree of Imit | linear lower bound, linear upper bound |
| C63 | CTR blocks evaluate in bounded stack | partial | depth of the counter's tree | linear lower bound |
| C64 | The end of every stream is a null iterator | partial | iterators of StCTREncrypted and StMemory | null iterators compared |
| C65 | Threads share a kuznyechik key | partial | any programs of any threads over `Kuz.Blk` trees with shared caches | cache invariant over all schedules; progress for fair schedules; the race |
| C66 | Threads encrypt with a shared magma key | partial | the same over KeyCachedData | the same |
| C67 | Authentication on top of a pipeline | proved | Imit over a stack of sources | C32, C50 with C57 |
| C68 | Failures of the underlying stream reach the caller | proved | streams that fail at a chosen operation | the run up to the failure is that of the good stream |
| C69 | A failed call can be retried | partial | `retry` | counterexamples; retry after failure of the first operation |
| C70 | Decrypting data that keep arriving | proved | CFBSource over a growing file | invariant over the history of arrivals and reads |
| C71 | The authentication code can be asked for again | partial | Imit over a pipe | counterexample; sources with their position in the object |
| C72 | Decryption takes no more than it needs | proved | CFBSource in any state over any source that has the blocks next, any sequence of reads | `ReadsBlocks` ends exactly there; induction on the sizes |
| C73 | Malformed native keys and containers are rejected | partial | LazyKey from words, containers | general theorems on what happens |
| C74 | Malformed substitution tables are rejected | partial | SboxNibble, SboxByte64Tab with tables of any size | general theorems on what happens |
| C75 | Malformed block texts are rejected | partial | BlkString (both) | witnesses; what is rejected |
| C76 | What repeated keys and initialization vectors reveal | proved | two CFBSinks, two CTR streams, one ECBSink | C12, C18, C44; injectivity of CFB for a fixed register |
| C77 | The test source supplies the words of its text | proved | test helper Hex64Source | induction over the text |
| C78 | The test sink and block texts are exact | proved | test helpers TestSink, ReprBlock, TestBlockEqual | injectivity of the hexadecimal text |
| C79 | A passing comparison means the result is the expected text | partial | test helpers HexMatch, SourceMatch | outcome in all cases, as prefixes |
| C80 | The test harness shows what the streams compute | proved | the helpers over ECBSink, CFBSink, ECBSource, CFBSource | C77, C78 with C12, C16, C18, C22 |
| C81 | The test container is the key of its text | partial | test helper HexContainer | induction over the text; witnesses |
| C82 | Finalizing an encrypting sink finalizes the sink below | partial | the sinks over a buffering sink | C12, C18, C21 |
| C83 | What the gost89 authentication codes of messages say about another message | proved | DataImit | C29; the chain is in the same state |
| C84 | Keys with special structure | proved | LazyKey from words, any substitution; CFB sinks and the gost89 authentication code | the rounds commute with the change; the schedule of a palindrome; induction on the blocks of the stream |
| C85 | Altered ciphertext is accepted and alters the data predictably | proved | the CFB and ECB sources, ItCTREncrypted | C22, C16, C44; the decryptions are bijections and local |
| C86 | Failures of kuznyechik streams and keys reach the caller | proved | ItCTREncrypted, Imit over streams that fail | induction over the blocks before the failure |
| C87 | The magma authentication code covers all data of the source | partial | Imit over sources that return pieces | the loop ends at a short piece; C32 |
| C88 | The work is proportional to the amount of data | partial | `Blk.calls`, the number of value() calls | bounds by induction over the block and the stream |
| C89 | What an encryption accesses does not depend on secrets | partial | the substitutions, rounds and blocks with a log of accesses and branches | erasure; the log of the first rounds is injective in the key |
| C90 | Results do not depend on the byte order of the machine | partial | every function that reinterprets memory, for both byte orders | the general results with the numbers that the machine sees; witnesses of the difference |
| C91 | The round keys of the 128-bit cipher are those of the standard | proved | `BlkIterKey` and the ten blocks of `Key`, any blocks, any range of numbers | induction on the number of iterations; injectivity of the Feistel step |
| C92 | Texts denote the same key only if they differ in letter case alone | proved | the text constructors of keys and blocks | injectivity of positional notation, of the substitution and of the division into words |
| C93 | The old object may be used again after a call | partial | two calls on the same object; the world keeps the file or pipe | the single-write and single-read theorems, induction on the calls; register equality |
| C94 | What the initialization vector decides | proved | two runs of CFB and CTR with different initialization vectors | the closed forms of the modes; injectivity of the block cipher, block by block |
| C95 | Authentication codes of messages with a common ending | proved | the three authentication codes of messages with a common ending | the chain of the code is injective in the value it starts from |
| C96 | The linear layer of the 128-bit cipher spreads every difference as far as possible | proved | `BlkL`, `BlkR` and the round of `Key::encrypt` | bytes as a field from Mathlib; linear recurrence with roots in geometric progression; Lagrange interpolation |
| C97 | What every text means as a key or a block | proved | the text constructors with every text | the functions that read numbers agree with a grammar, by cases on the text; case analysis on which parts begin with a number |
| C98 | How the modes are related | proved | CFBSink, CFBSource, ECBSink, StCTREncrypted | the mode functions satisfy the relations, by induction two blocks at a time; lifted through C12, C18, C22, C27, C44 |
| C99 | Objects live exactly as long as they can be reached | proved | objects, reference counts, pointer variables, streams and iterators | invariant: each count is the number of pointers; objects refer to earlier ones only, so existing is being reachable |
| C100 | Cipher feedback can be taken up again from saved values | partial | the constructors of CFBSink and CFBSource with pending bytes | fewer than 8 pending bytes are as if written: C19; resumption from the state theorems of C18, C22; otherwise by induction nothing is sent |
| C101 | A memory stream can be read from any place | proved | `StMemory::next_iter` with any offset; the same with offsets of type size_t (Model/Sizes) | case analysis; induction on the number of steps and on the number of words left; for size_t a simulation of the iterators |
| C102 | Tables of bytes can be supplied for the substitution | partial | `SboxByte` with any tables | bits of the shifted words |
| C103 | Keys from containers of the user | proved | `ECBSource` made from any implementation of `Container` | the calls in order; the key computes the rounds of the standard form |
| C104 | A crash leaves a readable beginning | partial | a device that stops at any byte below stacks of layers of any depth | the writes are those of the complete ciphertext; every mode is online, so a beginning decrypts to a beginning |
| C105 | The state of a key is not observable | proved | the streams and MACs over keys that act on the outside world (Model/Live) | refinement: a relation between calls that is preserved by sequencing, then induction over the data |
| C106 | A key that stops answering | partial | the same, with a key that records its questions and one that stops answering | every evaluation is equal to a list of questions followed by its result; induction over the blocks |
| C107 | Streams of blocks that can be read only once | proved | `Imit` and `StCTREncrypted` over iterators that act on the outside world (Model/KuzLive) | the run over a one-pass stream equals the run over the list of its blocks; induction over the blocks |
| C108 | Running out of memory | partial | the streams and MACs with a budget of allocations (Model/Scarce) | for every budget the run is that of unlimited memory or `bad_alloc` with a beginning of the output handed down; induction over data and reads; traces of a failed call: witnesses |
| C109 | A key of the 128-bit cipher asks its data once | proved | blocks and keys whose user parts act on the outside world, with the caches as state (Model/KuzToken) | refinement of a memory of two halves: relation between caches and memory kept by every block; induction over the history |
| C110 | A key of the 128-bit cipher survives running out of memory | proved | the 128-bit cipher with a budget of allocations (Model/ScarceKuz) | for every budget the run is that of unlimited memory or `bad_alloc`; the states in which it can stop are those of a memory of two halves that was asked for a beginning; induction over the attempts |
| C111 | Several keys of the 128-bit cipher used in turns do not interfere | proved | a family of keys of Model/KuzToken | frame: a key reads and writes its own caches only; the invariant of each key is kept by the others; induction over the uses |
| C112 | A key of the 128-bit cipher can be derived from another key | proved | two keys of Model/KuzToken, one in the world of the other | C109 for each key; what should happen depends on the world only through the actions on it, so the caches of the master key can be replaced by its memory |
| C113 | Threads share a key on processors with store buffers | partial | the threads of C65 and C66 with a buffer of stores each (Model/WeakMemory) | the discipline of C65 extended to the buffers: every store in a buffer is final and what it guards is visible before it; witnesses out of order |
| C114 | A key of the 64-bit cipher survives running out of memory | proved | keys of the 64-bit cipher with their cache as state, blocks, streams and MACs with a budget of allocations (Model/ScarceLive) | invariant of the cache: filled only with the words of the text; for every budget the outcome is that of unlimited memory or `bad_alloc`, and the invariant is kept; induction over data and attempts |
| C115 | Giving up a pointer takes a bounded amount of stack | partial | destroying a pointer in the model of lifetimes with a record of the nesting of destructors, for any order of members (Model/Release) | the nesting is at most the longest row of members and at least the longest row of objects with one pointer; reference counts decide which stay alive; rows that grow with the data: induction over the blocks on explicit heaps |
| C116 | Objects shared by threads live exactly as long as they can be reached | proved | threads with variables and pointers still to be destroyed, objects with atomic reference counts, any schedule (Model/Share) | invariant: every count is the number of pointers that threads and existing objects have; a measure for the destructors; witnesses for both orders of use and destruction |
| C117 | A mutex around every use makes a shared key safe on every processor | proved | memory with all values a location has had and the oldest value each thread can still be given; threads that lock a mutex around every request, and threads that do not (Model/Mutex) | invariant: the owner of the mutex, or else the mutex, knows all last values, and between requests the memory keeps the discipline of C65; witnesses without a mutex |
| C118 | A stream of words can be iterated only if a shared_ptr owns it, of which it knows | proved | streams of words with or without a shared_ptr, iterators, both orders of evaluation (Model/Bare) | case analysis of every operation; invariants over histories: iterators belong to shared streams; whole blocks stay whole |
| C119 | Every call returns, unless it reads an endless stream | proved | all sinks, sources, codes and streams, over user objects whose single calls return; endless sources and streams (Spec/Endless) | induction over data and budget: no outcome is divergence; endlessness as an invariant met for ever, both directions; counter mode by induction over the beginning read |
| C120 | Texts of hexadecimal digits mean the same in every locale | proved | the conversions of texts with the locale as a parameter (Model/Locale) | the digits pass every stage of the conversion unchanged; for the converse, texts that repeat one digit; histories by the cache theorem of C10 |
| C121 | What ciphertexts say about authentication codes under the same key | proved | ECBSink, CFBSink, StCTREncrypted and Imit under one key | a block in front and its encryption added to the next one leave the chain as it was; the data and ciphertexts of the modes show encryptions of blocks |
| C122 | Threads run streams of their own over one shared key | proved | the streams and codes as programs that ask a shared key word by word, over the memory of C117 | running such a program alone is a morphism to the streams of the other properties; then C117 for whole calls |
| C123 | Threads share a key while memory runs out | proved | the accesses to caches of C65 with requests for memory between them; the amount of memory is part of every request of a thread | a program with requests is the program without them, cut short; then the discipline of C65, C113 and C117 |
| C124 | Results do not depend on the machine, unless they are undefined | proved | the streams of C105 and C109 with the machine as a parameter | a relation between a call on two machines, closed under sequence; induction on blocks and data |
| C125 | The authentication code tells a full last block from a short one | proved | Imit of both ciphers, any key and message | doubling in the field has no fixed point but zero, bit by bit; the codes as functions of their mask |
| C126 | A key may be used again while it is being asked for | proved | BlkCached, Key and KeyCachedData over objects of the user that are programs with calls back into the library | induction on the depth of nesting: right caches stay right; a loaded cache is never written again; the interrupted evaluation step by step |
| C127 | When the data behind an object are read | proved | programs that make blocks and keys from each other, change variables and call value() in any order (Model/Views over Model/KuzToken) | invariant over the steps: which caches are loaded is which objects have been used; what they hold is what was shown at the first use; evaluation by induction on the objects |
| C128 | When the data behind blocks and keys of the 64-bit cipher are read | proved | programs that make blocks and keys of the 64-bit cipher from each other, change variables and key data and call value() and transform in any order (Model/MagmaViews over Model/Live) | invariant over the steps: which caches of keys are filled is which keys have been used; what they hold are the words of the first use; evaluation by induction on the objects |
| C129 | The key of a stream may be changed between its calls | proved | the streams of Model/Live with keys that consult a state which the program changes between the calls | one call under a fixed state by induction on the bytes (on the iterations), with a specification that gives every block a cipher of its own; then induction on the steps |
| C130 | When the data behind a stream are read | proved | programs that make keys, streams and iterators of the 128-bit cipher, change variables and ask (Model/StreamViews) | one call by induction on the nesting of streams and on the blocks of the loop, over the trees of C127; invariant of programs: every stream is described by what it rests on, every key is unused or holds what it saw at its first use; induction on the steps |
| C131 | How far differences and parities can be followed through the rounds | proved | rounds and keys of Model/Kuznyechik; counts over all blocks, round keys and keys (Spec/Differences) | the difference table and the table of parities of the S-box, decided by the kernel for all 256 x 256 entries; products over the bytes; at least 17 active bytes by C96; sums of signs; linear algebra for the masks |
| C132 | How far differences can be followed through the rounds of the 64-bit cipher | proved | LazyKey, SboxR3412, BlkForwarded and BlkEncrypted of Model; rounds in terms of Key::transform and counts over all key words and keys (Spec/MagmaDifferences) | the difference tables (sum against exclusive or) of the eight rows, decided by the kernel for all entries; the lowest nibble in which the words differ; active rounds by injectivity; products over the rounds |
| C133 | All ciphertexts but two determine the last two | proved | both block ciphers of Model; even permutations (Spec/EvenPermutations) | the sign of permutations: what is done twice is even, and so is what is done once in each of two places; addition of a word (also one that depends on the other half) is done twice or is the product of two such; L is R^8 done twice; S is done in the lower and in the upper half; the exchange of halves is a conjugate of an addition |
| C134 | Eight rounds with a random key hide one block completely | proved | BlkForwarded, BlkBackwarded and LazyKey of Model; keys with any substitution (Spec/Hiding) | the words of the last two rounds are used for the first time there: for any choice of the other six exactly one choice of these two leads to the result |
| C135 | Eight rounds with random tables can hardly be told from random answers | proved | BlkForwarded and BlkBackwarded of Model with keys that look words up in tables (Spec/RandomTables) | the first four rounds permute the blocks; of the last four the first and the last tables keep the inner words of all questions apart with almost all contents, and then the other two must have given values in q places each; summed over the answers that pass the test, and over those that do not |
| C136 | Several keys of the 128-bit cipher survive running out of memory | proved | a family of keys of Model/ScarceKuz | frame: also a use that fails reads and writes the caches of its own key only; the invariants of C110 for all keys at once; induction over the attempts |
| C137 | A copy of a block or of a key is the original under another name | proved | the programs of C127 with copies, member by member, and variables that let go of their objects (Model/Copies) | simulation: the variables name objects of the program without copies; then C127 |
| C138 | What the last sixteen rounds of the 64-bit cipher leave alone | proved | nothing new: BlkForwarded, BlkBackwarded, BlkSwapped, BlkEncrypted and BlkDecrypted of Model/Magma | the composition is an exchange of halves seen through a permutation; its fixed points are counted by the blocks with equal halves |
| C139 | Keys of eight equal words | proved | nothing new: BlkEncrypted, LazyKey and SboxR3412 of the model | all 32 rounds are powers of one map, which commutes with them; the substitution is injective |

## Where the code violates the property

* C09 Malformed hex key material is rejected. The code does not reject malformed hex: C09_nothing_is_rejected and C09_malformed_key_accepted prove the negation; the partial theorem is the part that holds (wrong length is rejected).
* C11 Sharing a magma key between threads. Results are right under every interleaving and every thread returns, but there is a data race (C11_data_race), so the property as stated is false; races are absent after one completed call.
* C13 ECBSink rejects unaligned writes with no effect. False of the code: C13_blocks_written_before_throw. Holds for data shorter than one block.
* C17 ECBSource handles truncated ciphertext safely. False of the code: every tail of 1..7 bytes is an out-of-bounds read. Safe for whole blocks.
* C21 CFBSink finalize flushes the tail. False of the code for every nonempty tail, both ciphers. Holds when nothing is held back.
* C24 CFBSource handles a short final block safely. False of the code for every chunk that is neither empty nor 8 bytes. Safe over whole blocks.
* C33 Magma MAC computation is free of undefined behaviour. False of the code: C33_always_undefined, C33_empty_message_undefined. The partial theorem is for x86 shifts.
* C34 Magma MAC separates messages with partial final blocks. False of the code: C34_zero_byte_same_mac. C34_equal_macs_partial says exactly when codes are equal: the partial blocks are equal after padding with zeros.
* C36 Magma MAC recursion depth is bounded. False of the code: C36_depth_grows, C36_no_bound. The partial theorem bounds the depth linearly. C36_reached measures the nesting with a recorder that runs with the evaluation.
* C42 Kuznyechik rejects keys that are not 64 hexadecimal digits. False of the code: C42_any_length_accepted, C42_half_key_accepted, C42_garbage_accepted. The partial theorems say what is rejected.
* C48 StMemory handles every vector safely. False of the code: C48_odd_length_out_of_bounds, C48_empty_null_dereference; C48_walk_safe_iff says exactly for which vectors walking is safe.
* C49 Iterators keep their stream alive. False of the code: C49_stream_gone, C49_history_stream_gone (also at the end of a history of handle operations). Proved: histories in which the stream always has an owner never dereference a dangling pointer; value() survives the stream.
* C52 Kuznyechik BlkShifted is a 128-bit left shift. Only shifts 1..63 are defined; C52_other_shifts_undefined shows the rest is undefined behaviour.
* C56 Any Key implementation works with the stream classes. False of the code for every class but LazyKey; ECBSink does accept any class.
* C58 Sharing a kuznyechik BlkCached between threads. As C11: right results under every interleaving, every thread returns after finitely many of its own steps, data race proved, no race among the calls after the first one has returned. Evaluation of the wrapped block is one step.
* C59 ECBSource never delivers raw ciphertext. False of the code: C59_raw_after_end. Holds over sources that stay at the end once there.
* C60 Magma BlkShifted is a left shift of the 64-bit block. False of the code: C60_always_undefined, C60_shift_by_zero_wrong, C60_shift_by_32_wrong, C60_shift_over_32_wrong. Right for 1..31 on x86; C60_every_count says what every count does there.
* C61 Kuznyechik encryption is free of undefined behaviour. False of the code on machines without unaligned loads: C61_misaligned_load. Holds on the others.
* C62 Kuznyechik MAC evaluates in bounded stack. False of the code: C62_depth_grows, C62_no_bound. The partial theorem bounds the depth linearly. C62_reached measures the nesting with a recorder that runs with the evaluation.
* C63 CTR blocks evaluate in bounded stack. False of the code: C63_depth_grows. C63_reached measures the nesting with a recorder that runs with the evaluation.
* C64 The end of every stream is a null iterator. False of the code: C64_end_is_not_null. True of StMemory.
* C65 Threads share a kuznyechik key. Results right and threads return for all programs and schedules (sequentially consistent interleaving of single loads and stores). Freedom from races is false: C65_data_race; true once one encryption has been completed.
* C66 Threads encrypt with a shared magma key. Results right and threads return for all programs and schedules (sequentially consistent interleaving of single loads and stores). Freedom from races is false: C66_data_race; true once one call has been completed.
* C69 A failed call can be retried. False of the code: C69_sink_retry_duplicates, C69_source_retry_loses; C69_sink_retry and C69_source_retry say what a retry does. C69_stack_sink_retry and C69_stack_source_retry say it for stacks of any depth, so also for ECB and gost89. The partial theorems give the cases in which a retry works.
* C71 The authentication code can be asked for again. False of the code: C71_second_call_undefined. Holds for sources that keep their position in the object.
* C73 Malformed native keys and containers are rejected. False of the code: C73_short_key_undefined, C73_long_key_truncated, C73_container_undefined, C73_container_zero_padded. The partial theorem covers keys of eight words.
* C74 Malformed substitution tables are rejected. False of the code: C74_nibble_tables, C74_entries_spill, C74_packed_short_undefined, C74_packed_long_truncated. The partial theorem covers well-formed tables.
* C75 Malformed block texts are rejected. False of the code: C75_long_text_truncated, C75_garbage_accepted. The partial theorem says what is rejected.
* C79 A passing comparison means the result is the expected text. False of the code: C79_surplus_accepted, C79_short_undefined; C79_hexmatch_outcome and C79_sourcematch_outcome give the outcome in all cases. The partial theorem covers results of the expected length.
* C81 The test container is the key of its text. False of the code: C81_malformed_texts (uninitialised characters), C81_garbage_accepted. The partial theorem covers texts of 64 digits.
* C82 Finalizing an encrypting sink finalizes the sink below. False of the code: C82_not_finalized, and for stacks of any depth C82_stack_not_finalized. The partial theorems: finalizing the returned sink, layer by layer, brings all out.
* C87 The magma authentication code covers all data of the source. False of the code: C87_short_piece_ends, C87_rest_ignored, C87_long_piece_undefined. The partial theorem covers pieces of whole blocks.
* C88 The work is proportional to the amount of data. False of the code: C88_ctr_not_linear. The partial theorems: a bound for one CTR block, linear bounds for both authentication codes, at most 174 calls for a block once the caches of the key are loaded, which every successful encryption brings about. C88_kuznyechik_recorded and C88_magma_recorded show that the counts are those of a recorder that runs with the evaluation.
* C89 What an encryption accesses does not depend on secrets. False of the code: C89_magma_reveals_key, C89_magma_reveals_text_key, C89_kuznyechik_reveals_key, C89_kuznyechik_reveals_text_key. C89_log_of_the_code and C89_kuznyechik_log_of_the_code tie the logs to the code. The partial theorems: the number of steps is the same for all keys and blocks. C89_kuznyechik_recorded shows that the log is that of a recorder that runs with the evaluation.
* C90 Results do not depend on the byte order of the machine. False of the code: C90_cfb_other_machine, C90_mac_one_block (for every key), C90_ecb_depends_on_machine, C90_ecb_big_endian_round_trip_fails, C90_gost89_mac_depends_on_machine, C90_kuznyechik_depends_on_machine. C90_ecb_written, C90_ecb_read, C90_mac_value, C90_gost89_mac_value, C90_kuznyechik_big_endian_value say what each machine computes. The partial theorems: keys of containers, CFB on machines of one byte order, the first blocks of CFB, the substitution of the 128-bit cipher. C90_little_endian_is_the_model ties the functions to the rest of the model.
* C93 The old object may be used again after a call. False of the code: C93_cfb_wrong, C93_cfb_source_wrong, C93_cfb_reveals, C93_cfb_short_pieces_lost. C93_cfb_same_object, C93_gost89_cfb_same_object and their counterparts for sources say exactly what happens; C93_cfb_right_iff and C93_gost89_cfb_right_iff when it does no harm. The partial theorems: ECB, and repeated reads from objects that hold their position.
* C100 Cipher feedback can be taken up again from saved values. False of the code for sinks given 8 or more pending bytes: C100_many_pending_stuck (nothing is ever sent) and C100_many_pending_in_clear (finalizing sends all but 8 bytes unencrypted). The partial theorems cover fewer than 8 bytes, which is what a sink itself leaves pending. Sources: no restriction.
* C102 Tables of bytes can be supplied for the substitution. False of the code: C102_vector_of_256_undefined; C102_table_arguments says what the tables are asked for. The partial theorem covers tables that reduce the number to a byte themselves, as the built-in ones do (C06).
* C104 A crash leaves a readable beginning. False of the code for what is left after a crash in the middle of a block: C104_torn_block_undefined, for stacks of any depth. C104_crash_leaves_prefix and C104_beginning_recovered hold without restriction; the partial theorem cuts the rest down to whole blocks before reading.
* C106 A key that stops answering. False of the code for reads: an ECBSource takes the block before it asks the key (C106_ecb_source_loses), and a CFBSource that fails in a read of several blocks has taken the first ones and discards them (C106_cfb_source_loses, C106_gost89_cfb_source_loses). The partial theorems cover reads that fail at their first block. The sinks and the authentication codes are covered without restriction (Props/Token has the part about gost89 and the codes).
* C108 Running out of memory. Model/Scarce models the magma and gost89 streams and MACs once more with a budget of allocations: the world has a counter, each statement that allocates in the code takes one from it and throws bad_alloc at zero. Statements that allocate several times take one; keys and the sinks and sources below draw on their own memory. C108_*_sink, C108_*_source, C108_mac, C108_data_mac and the two finalize theorems hold without restriction. 'Leaves no trace' is false of the code for writes and reads over files and pipes (C108_ecb_sink_leaves_traces, C108_cfb_sink_leaves_traces, C108_ecb_source_leaves_traces, C108_written_twice); the partial theorems cover sinks and sources whose calls change only the object returned.
* C113 Threads share a key on processors with store buffers. False of the code where stores may become visible out of order: C113_out_of_order (the second thread encrypts under a key whose first half is zero) and C113_magma_out_of_order, C113_magma_zero_key (under the zero key). The partial theorems cover all programs and events where the order is kept, and all events once the key has been used before. C113_at_once: the interleaved threads of C65 and C66 are a special case. Loads are not delayed.
* C115 Giving up a pointer takes a bounded amount of stack. False of the code: C115_ctr_grows (every iterator of counter mode holds the counter block of the one before: after n blocks n + 2 destructors inside each other), C115_mac_grows (seven for every block of data), C115_kuznyechik_mac_grows (two), C115_no_bound. C115_sinks_partial is the part that holds: sinks and sources, after any number of calls. C115_nesting and C115_nesting_least bound the nesting in every history by rows of objects; C115_same says that the recorded execution is the one of C99. Missing: nothing that is true of the code.

## Tests of the theorems

`seeded/LOG.jsonl` lists edits of the model, each of them a realistic bug, with the theorems that
stopped proving. They were made in a scratch copy.

## Axioms

p = `propext`, c = `Classical.choice`, q = `Quot.sound`.

| property | theorems (`Goost.Props.`…) and axioms |
|----|----|
| C01 | `C01_decrypt_encrypt` pq, `C01_encrypt_decrypt` pq |
| C02 | `C02_encryptors_agree` pcq |
| C03 | `C03_encrypt_conforms` pcq, `C03_decrypt_conforms` pcq, `C03_encryptionBase_conforms` pcq |
| C04 | `C04_encrypt_injective` pq, `C04_encrypt_bijective` pq |
| C05 | `C05_nibble_substitution` pcq, `C05_twisted_rotation` pcq, `C05_r3412_bijection` pcq |
| C06 | `C06_packed_equals_nibble` pcq, `C06_packed_total` pcq |
| C07 | `C07_string_native_agree` pq, `C07_container_native_agree` pcq |
| C08 | `C08_wrong_size_rejected` p, `C08_wrong_index_rejected` p, `C08_parsed_exactly` pq, `C08_key_of_wrong_size_rejected` pq |
| C09 | `C09_nothing_is_rejected` pcq, `C09_garbage_is_ignored` pq, `C09_malformed_key_accepted` pcq, `C09_malformed_key_rejected_partial` pq |
| C10 | `C10_history_is_memo` pq, `C10_cache_unobservable` pq, `C10_every_call_like_the_first` pq |
| C11 | `C11_results_right_partial` pq, `C11_results_like_single_call` pq, `C11_every_thread_returns` pcq, `C11_data_race` pq, `C11_no_race_after_first_call_partial` pq |
| C12 | `C12_aligned_write` pcq, `C12_conforms` pcq |
| C13 | `C13_short_write_rejected_partial` pq, `C13_unaligned_write` pcq, `C13_blocks_written_before_throw` pcq |
| C14 | `C14_split_write` pq, `C14_any_split` pq |
| C15 | `C15_round_trip` pcq |
| C16 | `C16_small_read_rejected` pq, `C16_read_one_block` pq, `C16_read_size_irrelevant` pq |
| C17 | `C17_truncated_is_undefined` pcq, `C17_whole_blocks_safe_partial` pq |
| C18 | `C18_ciphertext` pq, `C18_conforms` pcq, `C18_state` pq |
| C19 | `C19_magma_split_irrelevant` pq, `C19_gost89_split_irrelevant` pq |
| C20 | `C20_magma_held_back` pq, `C20_gost89_held_back` pq |
| C21 | `C21_nothing_held_back_partial` pq, `C21_magma_finalize_undefined` pq, `C21_gost89_finalize_undefined` pq, `C21_history_undefined` pq, `C21_gost89_history_undefined` pq |
| C22 | `C22_magma_supplies` pcq, `C22_gost89_supplies` pcq, `C22_reads_concatenate` pcq, `C22_budget_irrelevant` pcq |
| C23 | `C23_round_trip` pcq |
| C24 | `C24_magma_bad_chunk_undefined` pq, `C24_gost89_bad_chunk_undefined` pq, `C24_whole_blocks_safe_partial` pcq, `C24_gost89_whole_blocks_safe_partial` pcq |
| C25 | `C25_magma_self_synchronising` pcq, `C25_gost89_self_synchronising` pcq |
| C26 | `C26_magma_error_propagation` pcq, `C26_gost89_error_propagation` pcq |
| C27 | `C27_ciphertext` pq, `C27_conforms` pcq |
| C28 | `C28_round_trip` pcq |
| C29 | `C29_gost89_mac` pq, `C29_native_key` pcq, `C29_padding` pq |
| C30 | `C30_one_block_changes_mac` pq |
| C31 | `C31_zero_padding` pq, `C31_zero_byte` pq, `C31_zero_byte_after_whole` pq |
| C32 | `C32_omac` pcq, `C32_conforms` pcq |
| C33 | `C33_always_undefined` pq, `C33_empty_message_undefined` pq, `C33_defined_on_x86_partial` pcq |
| C34 | `C34_partial_block_zero_padded` pcq, `C34_zero_byte_same_mac` pcq, `C34_same_length_partial` pcq, `C34_equal_macs_partial` pcq |
| C35 | `C35_one_block_changes_mac` pcq |
| C36 | `C36_depth_grows` pq, `C36_linear_depth_partial` pcq, `C36_no_bound` pcq, `C36_reached` pcq |
| C37 | `C37_conforms` pq, `C37_conforms_any_key_data` pq, `C37_exceptions_pass` pq, `C37_second_half_exception` pq |
| C38 | `C38_decryptable` pq, `C38_injective` pq, `C38_bijective` pq |
| C39 | `C39_gmul_is_field_multiplication` pcq, `C39_bytes_are_polynomials` pcq, `C39_gmul_is_spec_product` pq, `C39_inverse` pq |
| C40 | `C40_S` pq, `C40_R` pq, `C40_L` pq, `C40_linear` pq |
| C41 | `C41_caches_unobservable` pq, `C41_key_history` pq, `C41_value_is_cached_value` pq, `C41_blkcached_is_memo` p |
| C42 | `C42_any_length_accepted` pq, `C42_half_key_accepted` pcq, `C42_garbage_accepted` pcq, `C42_short_text_rejected_partial` pq, `C42_unreadable_quarter_rejected_partial` pq |
| C43 | `C43_increment` pq, `C43_increment_many` pq, `C43_no_repetition` pq |
| C44 | `C44_key_from_text` pq, `C44_ctr_conforms` pcq, `C44_ctr_block` pcq |
| C45 | `C45_ctr_involution` pcq |
| C46 | `C46_keystream_blocks_differ` pcq, `C46_positions` pcq, `C46_different_iv` pcq |
| C47 | `C47_memory_blocks` pcq, `C47_memory_shows` pq, `C47_memory_end` pcq |
| C48 | `C48_odd_length_out_of_bounds` pcq, `C48_empty_null_dereference` pq, `C48_even_length_safe_partial` pcq, `C48_walk_safe_iff` pcq |
| C49 | `C49_stream_gone` p, `C49_stream_gone_wrapped` pq, `C49_history_stream_gone` pq, `C49_iter_drop_next` p, `C49_owned_histories_safe_partial` pq, `C49_value_survives_partial` p |
| C50 | `C50_mac_conforms` pcq, `C50_mac_any_stream` pcq |
| C51 | `C51_one_block_changes_mac` pcq |
| C52 | `C52_shift_partial` pcq, `C52_other_shifts_undefined` pq |
| C53 | `C53_magma_text_value` pq, `C53_magma_text_round_trip` pcq, `C53_kuznyechik_text_value` pq, `C53_kuznyechik_text_round_trip` pcq |
| C54 | `C54_magma_from_number` pq, `C54_magma_from_words` pq, `C54_magma_from_block` pq, `C54_magma_from_bytes` pq, `C54_magma_short_buffer` pq, `C54_kuznyechik` pq, `C54_kuznyechik_short_buffer` pq |
| C55 | `C55_magma_xor_all` pq, `C55_magma_xor_order` pq, `C55_magma_xor_twice` pq, `C55_kuznyechik_xor_all` pq, `C55_kuznyechik_xor_order` pq, `C55_kuznyechik_xor_twice` pq |
| C56 | `C56_other_keys_undefined` pcq, `C56_ecbsink_any_key_partial` pcq |
| C57 | `C57_layers_compose` pcq, `C57_stack_ciphertext` pcq, `C57_stack_plaintext` pcq, `C57_stack_round_trip` pcq |
| C58 | `C58_results_right_partial` pq, `C58_data_race` pq, `C58_every_thread_returns` pcq, `C58_no_race_after_first_call_partial` pq |
| C59 | `C59_raw_after_end` pq, `C59_only_plaintext_partial` pq |
| C60 | `C60_shift_partial` pcq, `C60_always_undefined` pq, `C60_shift_by_zero_wrong` pq, `C60_shift_by_32_wrong` pq, `C60_every_count` pcq, `C60_shift_over_32_wrong` pcq |
| C61 | `C61_misaligned_load` pq, `C61_no_undefined_behaviour_partial` pq, `C61_texts_partial` pq |
| C62 | `C62_depth_grows` pcq, `C62_no_bound` pcq, `C62_linear_depth_partial` pcq, `C62_reached` pq, `C62_reached_partial` pcq |
| C63 | `C63_depth_grows` pq, `C63_linear_depth_partial` pq, `C63_reached` pq |
| C64 | `C64_end_is_not_null` pq, `C64_memory_end_null_partial` pcq |
| C65 | `C65_results_right_partial` pcq, `C65_shared_key_conforms_partial` pcq, `C65_every_thread_returns` pq, `C65_data_race` pq, `C65_no_race_after_first_partial` pcq, `C65_first_completes` pcq, `C65_alone_is_sequential` pq |
| C66 | `C66_results_right_partial` pcq, `C66_encrypt_partial` pcq, `C66_decrypt_partial` pcq, `C66_every_thread_returns` pq, `C66_data_race` pq, `C66_no_race_after_first_partial` pq |
| C67 | `C67_mac_of_decrypted` pcq, `C67_kuznyechik_mac_of_ctr` pcq |
| C68 | `C68_stack_sink_failure` pcq, `C68_stack_source_failure` pcq, `C68_cfbsink_failure` pq, `C68_gost89_cfbsink_failure` pq, `C68_ecbsink_failure` pcq, `C68_cfbsource_failure` pq, `C68_gost89_cfbsource_failure` pq, `C68_ecbsource_failure` pq, `C68_mac_failure` pq |
| C69 | `C69_sink_retry` pq, `C69_sink_first_operation_partial` pq, `C69_sink_retry_duplicates` pq, `C69_source_retry` pcq, `C69_source_retry_loses` pcq, `C69_source_position_in_object_partial` pcq, `C69_stack_sink_retry` pcq, `C69_stack_sink_duplicates_iff` pcq, `C69_stack_source_retry` pcq, `C69_stack_source_retry_loses` pcq, `C69_stack_position_in_object_partial` pcq, `C69_gost89_source_retry` pcq, `C69_ecbsource_partial` pq |
| C70 | `C70_growing_file` pcq, `C70_gost89_growing_file` pcq |
| C71 | `C71_repeatable_partial` pq, `C71_second_call_undefined` pcq |
| C72 | `C72_any_reads` pcq, `C72_gost89_any_reads` pcq, `C72_reads_only_what_it_needs` pq, `C72_gost89_reads_only_what_it_needs` pq, `C72_trailing_data` pq |
| C73 | `C73_short_key_undefined` pcq, `C73_long_key_truncated` pq, `C73_eight_words_partial` pcq, `C73_container_undefined` pq, `C73_container_zero_padded` pcq |
| C74 | `C74_nibble_tables` pcq, `C74_entries_spill` pcq, `C74_packed_short_undefined` pq, `C74_packed_long_truncated` pq, `C74_well_formed_partial` pcq |
| C75 | `C75_long_text_truncated` pq, `C75_garbage_accepted` pcq, `C75_unreadable_half_rejected_partial` pq |
| C76 | `C76_ecb_equal_blocks` pcq, `C76_cfb_repeated_iv` pcq, `C76_gost89_cfb_repeated_iv` pcq, `C76_ctr_repeated_iv` pcq |
| C77 | `C77_read` pq, `C77_supplies_blocks` pq, `C77_whole_read` pq, `C77_more_than_asked` pq |
| C78 | `C78_sink` pcq, `C78_block_text` pcq, `C78_block_comparison` pcq, `C78_key_text` pcq, `C78_number_texts` pcq, `C78_block_shows` pcq, `C78_block_of_stream` pq |
| C79 | `C79_hexmatch_outcome` pq, `C79_sourcematch_outcome` pcq, `C79_surplus_accepted` pq, `C79_short_undefined` pq, `C79_same_length_partial` pq |
| C80 | `C80_cfb_sink` pcq, `C80_gost89_cfb_sink` pcq, `C80_ecb_sink` pcq, `C80_cfb_source` pcq, `C80_ecb_source` pcq, `C80_imit` pcq, `C80_expected_text` pcq, `C80_verdict` pcq, `C80_comparison` pcq, `C80_sink_verdicts` pcq, `C80_source_verdicts` pcq |
| C81 | `C81_container_is_text_key_partial` pcq, `C81_malformed_texts` pq, `C81_garbage_accepted` p |
| C82 | `C82_not_finalized` pcq, `C82_finalize_twice_partial` pcq, `C82_stack_not_finalized` pcq, `C82_stack_finalize_all_partial` pcq |
| C83 | `C83_tags_combine` pq |
| C84 | `C84_palindromic_key` pcq, `C84_highest_bits` pcq, `C84_highest_bits_cfb` pcq, `C84_highest_bits_gost89_cfb` pcq, `C84_highest_bits_code` pcq |
| C85 | `C85_anything_decrypts` pcq, `C85_truncated` pcq, `C85_ecb_rearranged` pq, `C85_cfb_spliced` pcq, `C85_ctr_changed` pcq |
| C86 | `C86_mac_failure` pcq, `C86_ctr_failure` pcq, `C86_iter_failure` pq, `C86_key_failure` pcq |
| C87 | `C87_short_piece_ends` pcq, `C87_long_piece_undefined` pcq, `C87_rest_ignored` pcq, `C87_whole_pieces_partial` pcq |
| C88 | `C88_kuznyechik_recorded` pq, `C88_magma_recorded` pq, `C88_cached_key_partial` pcq, `C88_after_first_encryption_partial` pcq, `C88_ctr_block_partial` pq, `C88_ctr_not_linear` pq, `C88_kuznyechik_mac_partial` pcq, `C88_magma_mac_partial` pcq |
| C89 | `C89_log_of_the_code` pq, `C89_magma_reveals_key` pcq, `C89_magma_reveals_text_key` pcq, `C89_magma_steps_partial` pcq, `C89_kuznyechik_log_of_the_code` pq, `C89_kuznyechik_reveals_key` pcq, `C89_kuznyechik_reveals_text_key` pcq, `C89_kuznyechik_steps_partial` pq, `C89_kuznyechik_count_partial` pcq, `C89_kuznyechik_recorded` pq |
| C90 | `C90_little_endian_is_the_model` pq, `C90_container_key_partial` pq, `C90_cfb_round_trip_partial` pcq, `C90_gost89_cfb_round_trip_partial` pcq, `C90_cfb_first_blocks_partial` pq, `C90_gost89_cfb_first_block_partial` pq, `C90_cfb_other_machine` pcq, `C90_ecb_written` pcq, `C90_ecb_read` pq, `C90_ecb_depends_on_machine` pcq, `C90_ecb_big_endian_round_trip_fails` pcq, `C90_mac_value` pcq, `C90_mac_one_block` pcq, `C90_gost89_mac_value` pq, `C90_gost89_mac_depends_on_machine` pcq, `C90_kuznyechik_substitution_partial` pq, `C90_kuznyechik_big_endian_value` pq, `C90_kuznyechik_depends_on_machine` pq |
| C91 | `C91_iterated` pq, `C91_int` pcq, `C91_constants` pq, `C91_empty_range` pq, `C91_round_keys` pq, `C91_last_keys_determine_key` pq |
| C92 | `C92_magma_key_texts` pcq, `C92_kuznyechik_key_texts` pcq, `C92_magma_block_texts` pcq, `C92_kuznyechik_block_texts` pcq, `C92_native_keys` pcq |
| C93 | `C93_cfb_same_object` pq, `C93_gost89_cfb_same_object` pq, `C93_cfb_reveals` pq, `C93_cfb_short_pieces_lost` pq, `C93_cfb_right_iff` pq, `C93_cfb_wrong` pq, `C93_gost89_cfb_right_iff` pq, `C93_ecb_same_object_partial` pcq, `C93_cfb_source_same_object` pq, `C93_gost89_cfb_source_same_object` pq, `C93_cfb_source_wrong` pcq, `C93_ecb_source_same_object_partial` pq, `C93_reread_partial` pq |
| C94 | `C94_cfb_encryption` pq, `C94_gost89_cfb_encryption` pq, `C94_cfb_decryption` pcq, `C94_gost89_cfb_decryption` pcq, `C94_ctr` pcq |
| C95 | `C95_magma` pcq, `C95_gost89` pq, `C95_kuznyechik` pcq |
| C96 | `C96_linear` pcq, `C96_one_byte` pcq, `C96_round` pcq, `C96_encryption` pcq, `C96_bound_is_reached` pq |
| C97 | `C97_number_unique` pcq, `C97_magma_key` pcq, `C97_magma_key_other` pcq, `C97_magma_block` pcq, `C97_kuznyechik_block` pcq, `C97_kuznyechik_key` pcq |
| C98 | `C98_cfb_interleaves` pq, `C98_cfb_interleaves_decryption` pcq, `C98_cfb_by_ecb` pcq, `C98_gost89_cfb_by_ecb` pcq, `C98_ctr_layers_commute` pcq |
| C99 | `C99_exists_iff_reachable` pcq, `C99_nothing_leaks` pcq, `C99_no_use_after_free` pcq, `C99_objects_constant` pcq, `C99_iterator_usable_iff` pcq, `C99_iter_starts` pcq, `C99_next_moves` pcq, `C99_next_ends` pcq, `C99_value_usable` pcq, `C99_iterator_does_not_keep` p |
| C100 | `C100_pending_partial` pq, `C100_resume_partial` pq, `C100_gost89_resume_partial` pq, `C100_many_pending_stuck` pq, `C100_many_pending_in_clear` pq, `C100_source_pending` pcq, `C100_source_resume` pcq, `C100_gost89_source_resume` pcq |
| C101 | `C101_next_iter` pq, `C101_advance` pq, `C101_shows` pq, `C101_odd_rest` pq, `C101_size_t` pq |
| C102 | `C102_reducing_tables_partial` pq, `C102_table_arguments` pq, `C102_vector_of_256_undefined` pq |
| C103 | `C103_asked_once` pq, `C103_container_failure` pq, `C103_container_opens` pcq, `C103_other_forms` pcq, `C103_mask_ignored` pq |
| C104 | `C104_crash_leaves_prefix` pcq, `C104_beginning_recovered` pcq, `C104_torn_block_undefined` pcq, `C104_recovery_partial` pcq |
| C105 | `C105_ecb_sink` pq, `C105_cfb_sink` pq, `C105_gost89_cfb_sink` pq, `C105_ecb_source` pq, `C105_cfb_source` pq, `C105_gost89_cfb_source` pq, `C105_mac` pq, `C105_cached_key` pq, `C105_cached_cfb_conforms` pq |
| C106 | `C106_words_asked` pcq, `C106_ecb_asked` pcq, `C106_cfb_asked` pq, `C106_ecb_withdrawn` pcq, `C106_cfb_withdrawn` pq, `C106_cfb_source_retry_partial` pq, `C106_ecb_source_loses` pq, `C106_gost89_cfb_asked` pq, `C106_gost89_cfb_withdrawn` pq, `C106_cfb_source_loses` pq, `C106_gost89_cfb_source_loses` pq, `C106_gost89_cfb_source_retry_partial` pq, `C106_mac_asked` pcq, `C106_mac_withdrawn` pcq, `C106_data_mac_asked` pq, `C106_data_mac_withdrawn` pq |
| C107 | `C107_ctr` pcq, `C107_mac` pcq, `C107_calls` pcq, `C107_calls_through_ctr` pcq, `C107_failure` pcq, `C107_null` pq, `C107_ctr_null` pq, `C107_pipe` pcq |
| C108 | `C108_ecb_sink` pcq, `C108_cfb_sink` pcq, `C108_gost89_cfb_sink` pcq, `C108_finalize` pcq, `C108_gost89_finalize` pcq, `C108_ecb_source` pcq, `C108_cfb_source` pcq, `C108_gost89_cfb_source` pcq, `C108_mac` pcq, `C108_data_mac` pcq, `C108_ecb_sink_leaves_traces` pcq, `C108_cfb_sink_leaves_traces` pq, `C108_written_twice` pcq, `C108_ecb_source_leaves_traces` pq, `C108_source_no_traces_partial` pcq, `C108_sink_no_traces_partial` pcq |
| C109 | `C109_history` pcq, `C109_key_data` pcq, `C109_key_data_fails` pq, `C109_text_key` pcq, `C109_mac_order` pcq, `C109_after_success` pcq, `C109_high_refuses` pcq, `C109_low_refuses` pcq, `C109_null` pq, `C109_without_effects` pq, `C109_ctr_streams` pcq, `C109_ctr_streams_text_key` pcq |
| C110 | `C110_history` pcq, `C110_enough` pcq, `C110_text_key` pcq, `C110_key_data` pcq, `C110_block` pcq, `C110_ctr` pcq, `C110_mac` pcq |
| C111 | `C111_in_turns` pcq, `C111_text_keys` pcq |
| C112 | `C112_derived_key` pcq, `C112_text_master` pcq |
| C113 | `C113_results_right_partial` pcq, `C113_shared_key_conforms_partial` pcq, `C113_every_thread_returns` pq, `C113_out_of_order` pq, `C113_after_first_partial` pcq, `C113_at_once` pq, `C113_magma_results_right_partial` pcq, `C113_magma_every_thread_returns` pq, `C113_magma_conforms_partial` pcq, `C113_magma_out_of_order` pcq, `C113_magma_zero_key` pcq, `C113_magma_after_first_partial` pcq |
| C114 | `C114_text_key` pcq, `C114_constructor` p, `C114_native_key` pcq, `C114_container` pcq, `C114_ecb_sink` pcq, `C114_cfb_sink` pcq, `C114_gost89_cfb_sink` pcq, `C114_finalize` pcq, `C114_ecb_source` pcq, `C114_cfb_source` pcq, `C114_gost89_cfb_source` pcq, `C114_mac` pcq, `C114_data_mac` pcq, `C114_history` pcq, `C114_text_key_history` pcq, `C114_unlimited_standard` pcq |
| C115 | `C115_same` pcq, `C115_nesting` pcq, `C115_nesting_least` pcq, `C115_nothing` pcq, `C115_ctr_grows` pcq, `C115_mac_grows` pcq, `C115_kuznyechik_mac_grows` pcq, `C115_no_bound` pcq, `C115_sinks_partial` pcq |
| C116 | `C116_no_use_after_free` pcq, `C116_exists_iff_reachable` pcq, `C116_nothing_leaks` pcq, `C116_destroyed_for_ever` pcq, `C116_lock_iff` pcq, `C116_keeper` pcq, `C116_destructors_finish` pcq, `C116_order_decides` p |
| C117 | `C117_results_right` pcq, `C117_shared_key_conforms` pcq, `C117_without_mutex` pcq, `C117_one_at_a_time` pq, `C117_no_deadlock` pq, `C117_after_first` pcq, `C117_magma_results_right` pcq, `C117_magma_conforms` pcq, `C117_magma_one_at_a_time` pq, `C117_magma_no_deadlock` pq, `C117_magma_without_mutex` pcq, `C117_magma_zero_key` pcq, `C117_magma_after_first` pcq |
| C118 | `C118_throws_iff` pq, `C118_null` pq, `C118_shared_gives` pq, `C118_adopted_gives` pq, `C118_base_pointer_throws` pq, `C118_base_pointer_users` pq, `C118_copy_not_shared` pq, `C118_iterators_of_shared` pq, `C118_next_null_iff` pq, `C118_by_the_rules` pq, `C118_make_shared_lives` pcq, `C118_adopted_lives` pcq, `C118_base_pointer_lives` pcq, `C118_bare_lives` p |
| C119 | `C119_cfb_source_endless` pcq, `C119_gost89_cfb_source_endless` pcq, `C119_ecb_source_endless` pq, `C119_ecb_sink` pcq, `C119_cfb_sink` pq, `C119_gost89_cfb_sink` pq, `C119_ecb_source` pq, `C119_cfb_source` pcq, `C119_gost89_cfb_source` pcq, `C119_data_mac` pq, `C119_mac_returns_iff` pcq, `C119_mac_budget` pq, `C119_kuznyechik_mac_returns_iff` pcq, `C119_kuznyechik_mac_budget` pq, `C119_ctr_returns` pq, `C119_ctr_endless` pq, `C119_ctr_begins` pcq, `C119_magma_keys` pq, `C119_kuznyechik_keys` pq |
| C120 | `C120_classic` pq, `C120_magma_key_iff` pcq, `C120_magma_key` pq, `C120_magma_key_any_time` pq, `C120_blocks` pq, `C120_block_iff` pq, `C120_kuznyechik_key` pq, `C120_other_texts` pcq, `C120_first_use_decides` pcq |
| C121 | `C121_ecb` pcq, `C121_cfb` pcq, `C121_gost89_cfb` pcq, `C121_ctr` pcq |
| C122 | `C122_with_mutex` pcq, `C122_after_first` pcq, `C122_calls_alone` pq, `C122_cfb_conforms` pcq, `C122_gost89_cfb_conforms` pcq, `C122_ecb_conforms` pcq, `C122_cfb_source_conforms` pcq, `C122_mac_conforms` pcq, `C122_gost89_mac_conforms` pcq, `C122_kuznyechik_with_mutex` pcq, `C122_ctr_conforms` pcq, `C122_kuznyechik_mac_conforms` pcq, `C122_mac_of_encrypted_conforms` pcq, `C122_no_deadlock` pq |
| C123 | `C123_interleaved` pcq, `C123_store_buffers` pcq, `C123_mutex` pcq, `C123_shared_key_conforms` pcq, `C123_alone_is_sequential` pq, `C123_magma_interleaved` pcq, `C123_magma_store_buffers` pcq, `C123_magma_conforms` pcq, `C123_magma_mutex_conforms` pcq |
| C124 | `C124_streams` pq, `C124_stacks` pq, `C124_magma_blocks` pq, `C124_magma_code` pq, `C124_kuznyechik` pq, `C124_standard` pq, `C124_equal_machines` pq, `C124_machines_differ` pq |
| C125 | `C125_magma_endings` pcq, `C125_magma_filled_up` pcq, `C125_magma_zero_byte` pcq, `C125_exception` pcq, `C125_magma_standard` pcq, `C125_kuznyechik` pcq |
| C126 | `C126_blocks` pq, `C126_key` pq, `C126_no_more_questions` pq, `C126_two_answers` pq, `C126_two_answers_wrong` pq, `C126_needs_itself` pq, `C126_magma` pq, `C126_magma_no_more_questions` pq, `C126_magma_two_answers` pcq |
| C127 | `C127_answers` pcq, `C127_unique` pq, `C127_making_reads_nothing` pq, `C127_copies_keep` pq, `C127_cached_keep` pq, `C127_key_changed` pcq, `C127_counters` pcq |
| C128 | `C128_answers` pcq, `C128_words_unique` pq, `C128_unique` pq, `C128_making_reads_nothing` pq, `C128_copies_keep` pq, `C128_cached_keep` pq, `C128_native_keep` p, `C128_three_keys` pcq |
| C129 | `C129_lazy_key` p, `C129_cfb_sink` pq, `C129_gost89_cfb_sink` pq, `C129_ecb_sink` pcq, `C129_cfb_source` pcq, `C129_gost89_cfb_source` pcq, `C129_ecb_source` pq, `C129_round_trip` pcq, `C129_mirrored` pcq, `C129_gost89_round_trip` pcq, `C129_gost89_mirrored` pcq, `C129_ecb_round_trip` pcq, `C129_within_block_lost` pcq |
| C130 | `C130_answers` pcq, `C130_unique` pq, `C130_making_reads_nothing` pq, `C130_last_size_read_nothing` pq, `C130_memory_keeps` pq, `C130_keys_keep` pq, `C130_same_gamma` pcq, `C130_two_answers` pcq, `C130_two_codes` pcq |
| C131 | `C131_round` pcq, `C131_reached` pcq, `C131_two_rounds` pcq, `C131_path` pcq, `C131_parities` pcq, `C131_masks` pcq, `C131_mask_exists` pcq |
| C132 | `C132_rounds` pq, `C132_round` pcq, `C132_round_reached` pcq, `C132_active` pcq, `C132_path` pcq, `C132_forwarded` pcq |
| C133 | `C133_magma` pcq, `C133_base` pcq, `C133_kuznyechik` pcq, `C133_magma_last_two` pcq, `C133_kuznyechik_last_two` pcq, `C133_magma_no_exchange` pcq, `C133_kuznyechik_no_exchange` pcq |
| C134 | `C134_standard` pcq, `C134_forwarded` pcq, `C134_backwarded` pcq, `C134_nothing_learned` pcq, `C134_needs_bijection` pcq |
| C135 | `C135_forwarded` pcq, `C135_backwarded` pcq, `C135_both` pcq, `C135_back` pq, `C135_blocks` pcq, `C135_needs_different` pcq |
| C136 | `C136_in_turns` pcq, `C136_enough` pcq, `C136_text_keys` pcq |
| C137 | `C137_copies` pq, `C137_answers` pcq, `C137_key_copied` pcq, `C137_key_remade` pcq, `C137_cached_copied` pq |
| C138 | `C138_undo_themselves` pq, `C138_unchanged` pcq, `C138_encrypted` pcq, `C138_decrypted` pcq, `C138_own_ciphertexts` pcq |
| C139 | `C139_one_round_ahead` pq, `C139_decrypted` pq, `C139_tells_the_key` pcq, `C139_needs_equal_words` pcq |
