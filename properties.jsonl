{"id": "C01", "title": "Magma decryption inverts encryption", "statement": "For any magma key whose round transform returns normally for indices 0..7, BlkDecrypted(BlkEncrypted(b, key), key).value() equals b.value(), and BlkEncrypted(BlkDecrypted(b, key), key).value() equals b.value(). This does not depend on the S-box being bijective.", "quantifier": "every block b, every key material and every substitution box (bijective or not)", "why_tests_cant": "2^64 blocks times 2^256 keys times all S-boxes; the repository tests one decryption vector.", "anchors": ["goost/magma/BlkEncrypted.cpp:BlkEncrypted", "goost/magma/BlkDecrypted.cpp:BlkDecrypted", "goost/magma/BlkForwarded.cpp:value", "goost/magma/BlkBackwarded.cpp:value"]}
{"id": "C02", "title": "The two magma encryptors agree", "statement": "EncryptionBase(key).transform(x) and BlkEncrypted(BlkRaw(x), key).value() give the same 64 bits, and if the key throws then both throw the same exception.", "quantifier": "every 64-bit x and every LazyKey, including keys that throw", "why_tests_cant": "Tests compare both on five vectors under one key; a difference on one round index of one code path would need a collision-free sweep of all keys.", "anchors": ["goost/magma/EncryptionBase.cpp:transform", "goost/magma/BlkEncrypted.cpp:BlkEncrypted"]}
{"id": "C03", "title": "Magma conforms to GOST R 34.12-2015", "statement": "With a key given as 64 hexadecimal digits, BlkEncrypted/BlkDecrypted compute exactly the Magma block cipher of GOST R 34.12-2015 (RFC 8891) with the id-tc26-gost-28147-param-Z S-box.", "quantifier": "every 256-bit key and every 64-bit block", "why_tests_cant": "Conformance is a statement over 2^320 (key, block) pairs; the tests have five.", "anchors": ["goost/magma/BlkEncrypted.cpp", "goost/magma/BlkDecrypted.cpp", "goost/magma/LazyKey.cpp:transform", "goost/magma/SboxR3412.cpp", "goost/magma/KeyDataString.cpp:key"]}
{"id": "C04", "title": "Magma encryption under a fixed key is a permutation", "statement": "For a fixed key, encryption maps distinct blocks to distinct blocks and reaches every block.", "quantifier": "every key, every pair of blocks", "why_tests_cant": "Injectivity on 2^64 values cannot be sampled.", "anchors": ["goost/magma/BlkEncrypted.cpp", "goost/magma/EncryptionBase.cpp"]}
{"id": "C05", "title": "S-box layer is nibble-wise substitution, twisted is a rotation by 11, and R3412 is a bijection", "statement": "SboxNibble::transform replaces nibble i of the word by table i applied to it; SboxTwisted rotates the inner result left by 11 bits; SboxR3412::transform is a bijection of 32-bit words.", "quantifier": "every 32-bit word, every eight tables with entries 0..15", "why_tests_cant": "2^32 words times arbitrary tables.", "anchors": ["goost/magma/SboxNibble.cpp:transform", "goost/magma/SboxTwisted.cpp:transform", "goost/magma/SboxR3412.cpp"]}
{"id": "C06", "title": "Packed 64-byte S-box is equivalent to eight nibble tables", "statement": "SboxByte built from a 64-byte packed table computes the same word function as SboxNibble built from the eight 16-entry tables unpacked from it (byte 4*i+j holds entry i of table 2j in its low nibble and of table 2j+1 in its high nibble).", "quantifier": "every 64-byte packed table and every 32-bit word", "why_tests_cant": "2^512 tables; a swapped nibble or offset shows only for tables that are not symmetric there.", "anchors": ["goost/magma/SboxByte.cpp:transform", "goost/magma/SboxByte64Tab.cpp:translate"]}
{"id": "C07", "title": "All ways of supplying a magma key agree", "statement": "A key given as 64 hex digits, as eight native words, or as 32 container bytes denotes the same cipher key when the texts/words/bytes denote the same 256-bit number.", "quantifier": "every 256-bit key", "why_tests_cant": "Byte-order mistakes are key-dependent; tests use one key.", "anchors": ["goost/magma/KeyDataString.cpp:key", "goost/magma/KeyDataNative.cpp:key", "goost/magma/ECBSource.cpp:makeKey", "goost/magma/LazyKey.cpp"]}
{"id": "C08", "title": "Hex round keys are parsed exactly and wrong sizes and indices are rejected", "statement": "KeyDataString(s).key(i) throws runtime_error when s is not 64 characters long or i is outside 0..7, and otherwise, for hexadecimal s, returns the number written by digits 8i..8i+7.", "quantifier": "every string and every int index", "why_tests_cant": "All strings of all lengths.", "anchors": ["goost/magma/KeyDataString.cpp:key"]}
{"id": "C09", "title": "Malformed hex key material is rejected", "statement": "A key string that contains a character that is not a hexadecimal digit makes magma key use fail with an exception instead of silently encrypting under some other key. (The code violates this.)", "quantifier": "every key string of length 64 with a non-hex character", "why_tests_cant": "The space of malformed strings is unbounded in practice and a test samples a few spellings.", "anchors": ["goost/magma/KeyDataString.cpp:key"]}
{"id": "C10", "title": "Magma key caching is unobservable", "statement": "For any sequence of key(i) calls on a KeyCachedData, every call returns what the wrapped KeyData would return, a call that throws leaves the cache able to retry, and after the first success the wrapped object is never consulted again, even if it answers differently each time.", "quantifier": "every finite history of calls and every wrapped KeyData behaviour over time", "why_tests_cant": "Quantifies over all call histories and all (even non-deterministic) wrapped objects.", "anchors": ["goost/magma/KeyCachedData.cpp:key"]}
{"id": "C11", "title": "Sharing a magma key between threads", "statement": "Any number of threads may call transform on one shared const LazyKey and each gets the value a single-threaded call would return, without data races. (The code has a data race; under sequentially consistent interleavings results are nevertheless right.)", "quantifier": "every number of threads and every interleaving of their steps", "why_tests_cant": "Schedules cannot be enumerated by tests.", "anchors": ["goost/magma/KeyCachedData.cpp:key", "goost/magma/KeyCachedData.h:CachedData"]}
{"id": "C12", "title": "ECBSink writes the ECB ciphertext", "statement": "Writing data whose length is a multiple of 8 to ECBSink performs on the underlying sink exactly one 8-byte write per block, in order, each the Magma encryption of that block, and returns an ECBSink over the resulting sink.", "quantifier": "every byte sequence of length divisible by 8, every key, every underlying sink including throwing ones", "why_tests_cant": "Unbounded data lengths and arbitrary sinks.", "anchors": ["goost/magma/ECBSink.cpp:write", "goost/magma/EncryptionBase.cpp:transform"]}
{"id": "C13", "title": "ECBSink rejects unaligned writes with no effect", "statement": "Writing data whose length is not a multiple of 8 throws runtime_error and writes nothing to the underlying sink. (It does throw, but the full blocks have already been written.)", "quantifier": "every byte sequence of length not divisible by 8, every key, every sink", "why_tests_cant": "Unbounded lengths and arbitrary effectful sinks.", "anchors": ["goost/magma/ECBSink.cpp:write"]}
{"id": "C14", "title": "ECB chunking independence", "statement": "Writing d1 then d2 to ECBSink has the same effect as writing d1 followed by d2 in one call, whenever d1 has length divisible by 8.", "quantifier": "every d1, d2, key and sink", "why_tests_cant": "Every split of every data sequence.", "anchors": ["goost/magma/ECBSink.cpp:write"]}
{"id": "C15", "title": "ECBSource decrypts what ECBSink encrypted", "statement": "Reading an ECBSource over a source that delivers the bytes written by ECBSink under the same key delivers the original data, block by block, then end of data.", "quantifier": "every data of length divisible by 8, every LazyKey, every underlying block source", "why_tests_cant": "Unbounded data and every key.", "anchors": ["goost/magma/ECBSource.cpp:read", "goost/magma/ECBSink.cpp:write"]}
{"id": "C16", "title": "ECBSource read sizes", "statement": "ECBSource::read(n) throws runtime_error for n < 8 without touching the underlying source; for n >= 8 it returns exactly one decrypted block or empty data at the end, never more than n bytes.", "quantifier": "every n, every state of the source", "why_tests_cant": "All sizes and all source states.", "anchors": ["goost/magma/ECBSource.cpp:read"]}
{"id": "C17", "title": "ECBSource handles truncated ciphertext safely", "statement": "If the underlying source ends with fewer than 8 bytes, ECBSource::read reports an error and does not access memory out of bounds. (The code reads and writes out of bounds.)", "quantifier": "every truncated tail of 1..7 bytes, every key", "why_tests_cant": "Out-of-bounds access is undefined behaviour that a passing test does not exhibit.", "anchors": ["goost/magma/ECBSource.cpp:read"]}
{"id": "C18", "title": "CFBSink writes the GOST R 34.13 CFB ciphertext", "statement": "For any sequence of writes, magma::CFBSink has performed on the underlying sink exactly one 8-byte write for every completed 8-byte block, in order, and their contents are the CFB (s=64, m=128) encryption of the completed blocks under register ivl||ivr.", "quantifier": "every sequence of writes of any lengths, every key, both IV halves, every underlying sink", "why_tests_cant": "Unbounded histories of writes.", "anchors": ["goost/magma/CFBSink.cpp:write"]}
{"id": "C19", "title": "CFBSink chunking independence", "statement": "Splitting the data into writes in any way gives the same sequence of underlying writes and the same resulting sink state, for magma and gost89 CFBSink, also when the underlying sink or the key throws.", "quantifier": "every split of every data sequence, any sink", "why_tests_cant": "Exponentially many splits.", "anchors": ["goost/magma/CFBSink.cpp:write", "goost/gost89/CFBSink.cpp:write"]}
{"id": "C20", "title": "CFBSink holds back fewer than 8 bytes", "statement": "After any history of writes starting from the 4-argument constructor, exactly (total mod 8) bytes are held back and 8*floor(total/8) bytes have been emitted.", "quantifier": "every history of writes", "why_tests_cant": "Unbounded histories.", "anchors": ["goost/magma/CFBSink.cpp:write", "goost/gost89/CFBSink.cpp:write"]}
{"id": "C21", "title": "CFBSink finalize flushes the tail", "statement": "finalize() emits the held-back bytes encrypted with the keystream of the next block, so that decryption recovers them; nothing is emitted if no bytes are held back. (With held-back bytes the code writes out of bounds for every possible tail.)", "quantifier": "every tail length 0..7, every content, key and IV", "why_tests_cant": "Out-of-bounds writes are undefined behaviour; no test has a tail.", "anchors": ["goost/magma/CFBSink.cpp:finalize", "goost/gost89/CFBSink.cpp:finalize"]}
{"id": "C22", "title": "CFBSource read contract", "statement": "CFBSource over a block source delivering ciphertext of length divisible by 8 is a well-behaved source: read(n) returns exactly the next min(n, remaining) plaintext bytes and the returned source continues right after them, so the concatenation of reads does not depend on the read sizes.", "quantifier": "every ciphertext of length divisible by 8, every sequence of read sizes, every underlying block source", "why_tests_cant": "All sequences of read sizes.", "anchors": ["goost/magma/CFBSource.cpp:read", "goost/gost89/CFBSource.cpp:read"]}
{"id": "C23", "title": "Magma CFB round trip", "statement": "Data of length divisible by 8 written to magma::CFBSink in any chunks and then read through magma::CFBSource with the same key and IV in any read sizes comes back unchanged.", "quantifier": "every data, chunking, read sizes, key and IV", "why_tests_cant": "Unbounded.", "anchors": ["goost/magma/CFBSink.cpp", "goost/magma/CFBSource.cpp"]}
{"id": "C24", "title": "CFBSource handles a short final block safely", "statement": "If the underlying source ends with a block shorter than 8 bytes (or returns a short read), CFBSource decrypts the available bytes without out-of-bounds access. (The code accesses memory out of bounds exactly when a chunk has 1..7 bytes or more than 8.)", "quantifier": "every chunk length and content, every state of the source", "why_tests_cant": "Undefined behaviour is not exhibited by a passing test.", "anchors": ["goost/magma/CFBSource.cpp:read", "goost/gost89/CFBSource.cpp:read"]}
{"id": "C25", "title": "CFB self-synchronisation", "statement": "Decrypting with a wrong IV still yields the right plaintext from the third block on (magma, 128-bit register) or the second block on (gost89).", "quantifier": "every ciphertext, every pair of IVs, every key", "why_tests_cant": "Unbounded ciphertexts.", "anchors": ["goost/magma/CFBSource.cpp:read", "goost/gost89/CFBSource.cpp:read"]}
{"id": "C26", "title": "CFB error propagation", "statement": "Replacing one ciphertext block changes the decryption of that block by exactly the same XOR difference, always changes the block whose keystream it feeds (two later for magma, one later for gost89), and leaves every other block unchanged.", "quantifier": "every ciphertext, every position, every replacement", "why_tests_cant": "Unbounded.", "anchors": ["goost/magma/CFBSource.cpp:read", "goost/gost89/CFBSource.cpp:read"]}
{"id": "C27", "title": "GOST 28147-89 CFB sink", "statement": "gost89::CFBSink emits exactly the cipher feedback (gammirovanie s obratnoy svyazyu) ciphertext of GOST 28147-89 for the completed blocks of any history of writes.", "quantifier": "every history of writes, every key, S-box and IV", "why_tests_cant": "Unbounded.", "anchors": ["goost/gost89/CFBSink.cpp:write"]}
{"id": "C28", "title": "GOST 28147-89 CFB round trip", "statement": "Data of length divisible by 8 written to gost89::CFBSink in any chunks and read back through gost89::CFBSource in any read sizes comes back unchanged.", "quantifier": "every data, chunking, read sizes, key, S-box and IV", "why_tests_cant": "Unbounded.", "anchors": ["goost/gost89/CFBSink.cpp", "goost/gost89/CFBSource.cpp"]}
{"id": "C29", "title": "GOST 28147-89 imitation insert", "statement": "DataImit(data, key).value() is the 64-bit MAC of GOST 28147-89: data zero-padded to a multiple of 8 and to at least two blocks, chained through the 16-round transform.", "quantifier": "every data of any length, every key", "why_tests_cant": "Unbounded lengths.", "anchors": ["goost/gost89/DataImit.cpp:value", "goost/gost89/ImitedBlock.cpp:value"]}
{"id": "C30", "title": "Any single-block change changes the gost89 MAC", "statement": "If two messages of equal length (at least 16 bytes, whole blocks) differ in exactly one 8-byte block then DataImit gives different values.", "quantifier": "every pair of such messages, every key", "why_tests_cant": "Universally quantified inequality.", "anchors": ["goost/gost89/DataImit.cpp:value"]}
{"id": "C31", "title": "gost89 MAC zero padding", "statement": "DataImit does not distinguish a message from the same message with zero bytes appended up to the padded length; appending a zero byte to a message whose length is not a whole number of blocks never changes the value.", "quantifier": "every message and key", "why_tests_cant": "Universal collision statement.", "anchors": ["goost/gost89/DataImit.cpp:value"]}
{"id": "C32", "title": "Magma MAC conforms to GOST R 34.13 OMAC", "statement": "On a processor that takes 32-bit shift counts modulo 32 (elsewhere the computation is undefined, C33), Imit over a source delivering a non-empty message of whole blocks returns the OMAC of GOST R 34.13-2015 under the key.", "quantifier": "every message of whole blocks, every key, every block source", "why_tests_cant": "Unbounded lengths; one vector tested.", "anchors": ["goost/magma/Imit.cpp:value", "goost/magma/BlkShifted.cpp:value"]}
{"id": "C33", "title": "Magma MAC computation is free of undefined behaviour", "statement": "Computing Imit executes no undefined behaviour. (The code always executes a 32-bit shift by 63, whatever the message and key, and BlkShifted shifts out of range for every n.)", "quantifier": "every message, every key, every shift count", "why_tests_cant": "Undefined behaviour need not fail a test on one platform.", "anchors": ["goost/magma/BlkShifted.cpp:value", "goost/magma/Imit.cpp:BlkImitShifted"]}
{"id": "C34", "title": "Magma MAC separates messages with partial final blocks", "statement": "Messages of different lengths that end in a partial block get different MAC inputs, as the padding of GOST R 34.13 ensures. (The code pads with zeros only: appending a zero byte to a message ending in a partial block of 1..6 bytes never changes the MAC.)", "quantifier": "every key and every message", "why_tests_cant": "Universal collision statement.", "anchors": ["goost/magma/Imit.cpp:value"]}
{"id": "C35", "title": "Any single-block change changes the magma MAC", "statement": "On a processor that takes 32-bit shift counts modulo 32 (elsewhere the computation is undefined, C33), two messages of the same number of whole blocks that differ in exactly one block have different Imit values.", "quantifier": "every pair of such messages and every key", "why_tests_cant": "Universally quantified inequality.", "anchors": ["goost/magma/Imit.cpp:value"]}
{"id": "C36", "title": "Magma MAC recursion depth is bounded", "statement": "Evaluating Imit uses call depth independent of the message length. (The code builds a lazy expression whose evaluation recursion is at least as deep as the number of blocks.)", "quantifier": "every message length", "why_tests_cant": "Stack exhaustion depends on platform limits.", "anchors": ["goost/magma/Imit.cpp:value", "goost/kuznyechik/Imit.cpp:value"]}
{"id": "C37", "title": "Kuznyechik conforms to GOST R 34.12-2015", "statement": "With a key of 64 hexadecimal digits, BlkEncrypted computes exactly the Kuznyechik cipher of GOST R 34.12-2015 (RFC 7801). On a processor that allows 64-bit loads at any address (elsewhere undefined, C61).", "quantifier": "every 256-bit key and every 128-bit block", "why_tests_cant": "2^384 pairs; four vectors tested.", "anchors": ["goost/kuznyechik/Key.cpp:encrypt", "goost/kuznyechik/BlkIterKey.cpp:generate", "goost/kuznyechik/BlkL.cpp", "goost/kuznyechik/BlkR.cpp", "goost/kuznyechik/BlkS.cpp"]}
{"id": "C38", "title": "Kuznyechik encryption under a fixed key is a permutation", "statement": "For a fixed key, distinct blocks encrypt to distinct blocks and every block is reached; an explicit inverse exists. On a processor that allows 64-bit loads at any address (elsewhere undefined, C61).", "quantifier": "every key and pair of blocks", "why_tests_cant": "Injectivity on 2^128 values.", "anchors": ["goost/kuznyechik/Key.cpp:encrypt", "goost/kuznyechik/BlkS.cpp", "goost/kuznyechik/BlkL.cpp"]}
{"id": "C39", "title": "gmul is multiplication in GF(2)[x]/(x^8+x^7+x^6+x+1)", "statement": "The byte product used by BlkR is the product of the corresponding polynomials modulo x^8+x^7+x^6+x+1 over GF(2).", "quantifier": "every pair of bytes", "why_tests_cant": "Claim relates code to an algebraic structure; consequences (commutativity, distributivity) are for all bytes.", "anchors": ["goost/kuznyechik/BlkR.cpp:gmul"]}
{"id": "C40", "title": "Kuznyechik linear layer is linear and invertible", "statement": "BlkL and BlkR are invertible and commute with XOR of blocks; BlkS is invertible. On a processor that allows 64-bit loads at any address (elsewhere undefined, C61).", "quantifier": "every block", "why_tests_cant": "2^128 blocks.", "anchors": ["goost/kuznyechik/BlkL.cpp", "goost/kuznyechik/BlkR.cpp:value", "goost/kuznyechik/BlkS.cpp:value"]}
{"id": "C41", "title": "Kuznyechik round-key caching is unobservable", "statement": "For any history of encryptions and evaluations with one Key, each encryption returns what it would return with a fresh key; a BlkCached consults its block until the first success and never after.", "quantifier": "every history, every wrapped block behaviour", "why_tests_cant": "All histories.", "anchors": ["goost/kuznyechik/BlkCached.cpp:BlockCache::value", "goost/kuznyechik/Key.cpp"]}
{"id": "C42", "title": "Kuznyechik rejects keys that are not 64 hexadecimal digits", "statement": "Constructing or using a Key from a string that is not exactly 64 hexadecimal digits throws. (The code accepts shorter keys of at least 32 characters, longer keys and some malformed digits.)", "quantifier": "every string", "why_tests_cant": "All strings.", "anchors": ["goost/kuznyechik/KeyDataString.cpp", "goost/kuznyechik/BlkString.cpp:value", "goost/kuznyechik/Key.cpp"]}
{"id": "C43", "title": "BlkIncremented is increment modulo 2^128", "statement": "BlkIncremented adds one to the 128-bit block value with carry from the low to the high half, wrapping at 2^128; iterating it from (0, iv) does not repeat a value within 2^128 steps.", "quantifier": "every block, every number of steps", "why_tests_cant": "Carry cases among 2^128 values.", "anchors": ["goost/kuznyechik/BlkIncremented.cpp:value"]}
{"id": "C44", "title": "CTR stream conforms to GOST R 34.13", "statement": "Block n of StCTREncrypted(stream, key, iv) is block n of the stream XOR E((iv << 64) + n mod 2^128), and last()/size() are those of the underlying stream. On a processor that allows 64-bit loads at any address (elsewhere undefined, C61).", "quantifier": "every stream length, every n, key and iv", "why_tests_cant": "Unbounded streams.", "anchors": ["goost/kuznyechik/StCTREncrypted.cpp"]}
{"id": "C45", "title": "CTR is an involution", "statement": "Wrapping a stream twice in StCTREncrypted with the same key and iv yields the original blocks. On a processor that allows 64-bit loads at any address (elsewhere undefined, C61).", "quantifier": "every stream, key and iv", "why_tests_cant": "Unbounded streams.", "anchors": ["goost/kuznyechik/StCTREncrypted.cpp"]}
{"id": "C46", "title": "CTR keystream does not repeat", "statement": "Under one key, keystream blocks at different positions, or under different iv values within the first 2^64 blocks, are different. On a processor that allows 64-bit loads at any address (elsewhere undefined, C61).", "quantifier": "every key, every pair of (iv, position)", "why_tests_cant": "Astronomically many pairs.", "anchors": ["goost/kuznyechik/StCTREncrypted.cpp", "goost/kuznyechik/BlkIncremented.cpp"]}
{"id": "C47", "title": "StMemory iteration enumerates the data", "statement": "For data of 2k words, k >= 1, iterating StMemory visits exactly k blocks, the i-th being words 2i (low) and 2i+1 (high), and last() is true exactly at the k-th.", "quantifier": "every vector of even positive length", "why_tests_cant": "All lengths.", "anchors": ["goost/kuznyechik/StMemory.cpp"]}
{"id": "C48", "title": "StMemory handles every vector safely", "statement": "Iterating a StMemory of odd or zero length and using the iterator is free of undefined behaviour. (Odd length reads past the end; empty data gives a null iterator that Imit and StCTREncrypted dereference.)", "quantifier": "every vector of odd or zero length", "why_tests_cant": "Undefined behaviour is not exhibited by a passing test.", "anchors": ["goost/kuznyechik/StMemory.cpp:next_iter", "goost/kuznyechik/Imit.cpp:value", "goost/kuznyechik/StCTREncrypted.cpp"]}
{"id": "C49", "title": "Iterators keep their stream alive", "statement": "An iterator obtained from a stream remains usable for as long as it is held. (The iterator holds only a weak pointer and dereferences null once the stream is gone.)", "quantifier": "every stream, every iterator position, every moment of destruction of the stream", "why_tests_cant": "Lifetime orders cannot be enumerated by tests.", "anchors": ["goost/kuznyechik/StMemory.cpp:ItMemory::next"]}
{"id": "C50", "title": "Kuznyechik MAC conforms to GOST R 34.13 OMAC", "statement": "Imit over StMemory holding a non-empty message of whole blocks returns the OMAC of GOST R 34.13-2015 under the key. On a processor that allows 64-bit loads at any address (elsewhere undefined, C61).", "quantifier": "every message of whole blocks, every key", "why_tests_cant": "Unbounded lengths; one vector tested.", "anchors": ["goost/kuznyechik/Imit.cpp:value"]}
{"id": "C51", "title": "Any single-block change changes the Kuznyechik MAC", "statement": "Two messages of the same number of whole blocks that differ in exactly one block have different Imit values. On a processor that allows 64-bit loads at any address (elsewhere undefined, C61).", "quantifier": "every pair of such messages and every key", "why_tests_cant": "Universally quantified inequality.", "anchors": ["goost/kuznyechik/Imit.cpp:value"]}
{"id": "C52", "title": "Kuznyechik BlkShifted is a 128-bit left shift", "statement": "BlkShifted(b, n) is the block value shifted left by n bits modulo 2^128 for every n in 0..127, without undefined behaviour. (True for 1..63 only; every other n is undefined.)", "quantifier": "every block, every int n", "why_tests_cant": "All counts.", "anchors": ["goost/kuznyechik/BlkShifted.cpp:value"]}
{"id": "C53", "title": "Hex block text round trip", "statement": "BlkString of the fixed-width hexadecimal text of a block value gives back the value, shorter hexadecimal text is zero-extended on the left, for magma (16 digits) and kuznyechik (32 digits).", "quantifier": "every block value, every hexadecimal text up to full width", "why_tests_cant": "2^64 and 2^128 values.", "anchors": ["goost/magma/BlkString.cpp:value", "goost/kuznyechik/BlkString.cpp:value"]}
{"id": "C54", "title": "BlkRaw constructors agree", "statement": "The block made from a 64-bit number, from two words, from another block, from 8 little-endian bytes by pointer or by vector is the same block; a vector or buffer shorter than 8 bytes is out of bounds.", "quantifier": "every value, every buffer", "why_tests_cant": "All values and buffers.", "anchors": ["goost/magma/BlkRaw.cpp", "goost/kuznyechik/BlkRaw.cpp"]}
{"id": "C55", "title": "BlkXored is bitwise XOR for any number of operands", "statement": "BlkXored(a, b, c, ...) has the XOR of all operand values, independent of the order of the operands; XOR with the same block twice is the identity.", "quantifier": "every list of at least two blocks", "why_tests_cant": "Any arity.", "anchors": ["goost/magma/BlkXored.cpp", "goost/magma/BlkXored.h", "goost/kuznyechik/BlkXored.h"]}
{"id": "C56", "title": "Any Key implementation works with the stream classes", "statement": "ECBSource, CFBSink and CFBSource accept any implementation of the Key interface. (They downcast to LazyKey and dereference null for any other implementation as soon as a block is processed.)", "quantifier": "every Key implementation other than LazyKey, every data of at least one block", "why_tests_cant": "Ranges over all implementations of an interface.", "anchors": ["goost/magma/ECBSource.cpp:read", "goost/magma/CFBSink.cpp:write", "goost/magma/CFBSource.cpp:read"]}
{"id": "C57", "title": "Layered sinks and sources compose", "statement": "Encrypting through a stack of any number of sinks (each an ECBSink or a CFBSink, of magma or of gost89, writing into the next) and decrypting through the mirrored stack of sources returns the original data of whole blocks; what reaches the last sink is what the modes of operation of all layers make of the data, one after the other.", "quantifier": "every data of whole blocks, every number and kind of layers, all their keys and IVs, any chunking the outermost layer supports and any read sizes", "why_tests_cant": "All data and all chunkings.", "anchors": ["goost/magma/CFBSink.cpp", "goost/magma/ECBSink.cpp", "goost/magma/CFBSource.cpp", "goost/magma/ECBSource.cpp", "goost/gost89/CFBSink.cpp", "goost/gost89/CFBSource.cpp"]}
{"id": "C58", "title": "Sharing a kuznyechik BlkCached between threads", "statement": "Any number of threads may call value() of one shared BlkCached (and therefore use one shared kuznyechik Key) and each gets the value a single-threaded call would return, without data races. (The code has a data race; under sequentially consistent interleavings results are nevertheless right.)", "quantifier": "every number of threads and every interleaving of their steps", "why_tests_cant": "Schedules cannot be enumerated by tests.", "anchors": ["goost/kuznyechik/BlkCached.cpp:value"]}
{"id": "C59", "title": "ECBSource never delivers raw ciphertext", "statement": "Every byte delivered by an ECBSource, or by a source it returned, is decrypted data. (At the first empty read the object returned is the underlying source itself, so data that arrive later come out undecrypted.)", "quantifier": "every underlying source, including growing files and sockets, every history of reads", "why_tests_cant": "Tests use sources of fixed content; the property is about every source and every history.", "anchors": ["goost/magma/ECBSource.cpp:read"]}
{"id": "C60", "title": "Magma BlkShifted is a left shift of the 64-bit block", "statement": "BlkShifted(block, n).value() is the 64-bit value of the block shifted left by n bits, for 0 <= n < 64. (The code shifts a 32-bit word by 64 - n, which is out of range for every n for which the other shifts are in range: every call is undefined behaviour; on processors that mask shift counts n = 0 and n >= 32 give wrong values.)", "quantifier": "every block and every shift count", "why_tests_cant": "The only use in the repository shifts by one on hardware that masks shift counts; a test sees the masked result and not the undefined behaviour, and covers one count.", "anchors": ["goost/magma/BlkShifted.cpp: BlkShifted::value", "goost/magma/Imit.cpp: BlkImitShifted::value"]}
{"id": "C61", "title": "Kuznyechik encryption is free of undefined behaviour", "statement": "BlkEncrypted(block, key).value() has no undefined behaviour for any block and key whose own evaluation has none. (The code loads 64-bit words from odd addresses, which is undefined by the language; on processors that allow it the property holds.)", "quantifier": "every block, every key, every key text", "why_tests_cant": "Tests run on one processor where the unaligned load happens to work; the claim is about every machine and every input.", "anchors": ["goost/kuznyechik/BlkR.cpp: BlkR::value", "goost/kuznyechik/BlkEncrypted.cpp: BlkEncrypted::value", "goost/kuznyechik/Key.cpp: Key::encrypt"]}
{"id": "C62", "title": "Kuznyechik MAC evaluates in bounded stack", "statement": "The nesting of value() calls made by Imit::value() is bounded independently of the message length. (The code builds one nested block per message block and evaluates it recursively at the end, so the depth grows without bound.)", "quantifier": "every stream, every number of blocks, every key", "why_tests_cant": "Test messages are a few blocks long; the growth only shows for long messages, and the claim is about every length.", "anchors": ["goost/kuznyechik/Imit.cpp: Imit::value", "goost/kuznyechik/BlkEncrypted.cpp: BlkEncrypted::value"]}
{"id": "C63", "title": "CTR blocks evaluate in bounded stack", "statement": "The nesting of value() calls made when block n of StCTREncrypted is read is bounded independently of n. (The code wraps the counter in one more BlkIncremented per block, so the depth is more than n.)", "quantifier": "every stream, every position n, every key and iv", "why_tests_cant": "Test streams are a few blocks long; the growth only shows far into a stream.", "anchors": ["goost/kuznyechik/StCTREncrypted.cpp: ItCTREncrypted::next, ItCTREncrypted::value", "goost/kuznyechik/BlkIncremented.cpp: BlkIncremented::value"]}
{"id": "C64", "title": "The end of every stream is a null iterator", "statement": "next() at the last block of a stream returns null. (StMemory does; StCTREncrypted returns an iterator that is not null and whose every method dereferences null.)", "quantifier": "every stream, key and iv", "why_tests_cant": "Must hold for every stream length and every wrapped stream class.", "anchors": ["goost/kuznyechik/StCTREncrypted.cpp: ItCTREncrypted::next", "goost/kuznyechik/StMemory.cpp: ItMemory::next"]}
{"id": "C65", "title": "Threads share a kuznyechik key", "statement": "Threads that evaluate blocks which share cached blocks (for example encryptions with one Key object) need no lock: whatever each thread does with the values it gets, every thread gets the values a single-threaded program would get, every thread that keeps being scheduled returns, and no two threads ever access the same data member concurrently with one of them writing. (The last part is false of the code while the round keys have not been evaluated.)", "quantifier": "every number of threads, every program of every thread, every interleaving, every key and all blocks", "why_tests_cant": "The outcome depends on the interleaving of the threads; tests exercise one thread.", "anchors": ["goost/kuznyechik/BlkCached.cpp: BlkCached::value", "goost/kuznyechik/Key.cpp: Key::Key", "goost/kuznyechik/BlkEncrypted.cpp: BlkEncrypted::value"]}
{"id": "C66", "title": "Threads encrypt with a shared magma key", "statement": "Threads that encrypt or decrypt blocks with one LazyKey object need no lock: every thread gets what a single-threaded program would get, every thread that keeps being scheduled returns, and there is no data race. (The last part is false of the code before the first call on the key has been completed.)", "quantifier": "every number of threads, every program of every thread, every interleaving, every key and all blocks", "why_tests_cant": "The outcome depends on the interleaving of the threads; tests exercise one thread.", "anchors": ["goost/magma/KeyCachedData.cpp: KeyCachedData::key", "goost/magma/LazyKey.cpp: LazyKey::transform", "goost/magma/BlkEncrypted.cpp: BlkEncrypted::value", "goost/magma/BlkDecrypted.cpp: BlkDecrypted::value"]}
{"id": "C67", "title": "Authentication on top of a pipeline", "statement": "The authentication code computed over a stack of decrypting sources is that of the original data (magma and gost89 layers); the kuznyechik authentication code computed over an encrypted stream is that of the ciphertext, and over a stream encrypted twice with the same key and IV that of the plaintext.", "quantifier": "every data, every number and kind of layers, all keys and IVs", "why_tests_cant": "All data and all stacks.", "anchors": ["goost/magma/Imit.cpp: Imit::value", "goost/magma/CFBSource.cpp", "goost/magma/ECBSource.cpp", "goost/kuznyechik/Imit.cpp: Imit::value", "goost/kuznyechik/StCTREncrypted.cpp"]}
{"id": "C68", "title": "Failures of the underlying stream reach the caller", "statement": "If the sink or source below an encrypting or decrypting stream, or below an authentication code, throws at some operation, the call that was running throws the same exception; up to then exactly the blocks before the failing operation were handed down, and nothing is handed down after it. A read that does not need the failing operation does not fail. value() of an authentication code never returns a code of a part of the data.", "quantifier": "every key, every data, every division into writes and reads, every underlying stream, every operation at which it fails", "why_tests_cant": "The failure can hit any operation of any call over any stream.", "anchors": ["goost/magma/CFBSink.cpp: CFBSink::write", "goost/gost89/CFBSink.cpp: CFBSink::write", "goost/magma/ECBSink.cpp: ECBSink::write", "goost/magma/CFBSource.cpp: CFBSource::read", "goost/gost89/CFBSource.cpp: CFBSource::read", "goost/magma/ECBSource.cpp: ECBSource::read", "goost/magma/Imit.cpp: Imit::value"]}
{"id": "C69", "title": "A failed call can be retried", "statement": "The streams are immutable values: a write or read that has thrown can be called again on the same object, and the outcome is that of a call that did not fail. (False of the code: the operations on the underlying stream that succeeded before the failure are not undone; a retried write duplicates blocks and a retried read over a consumed stream loses them. True if the first operation failed, and of sources whose position is kept in the object.)", "quantifier": "every key, every data, every point of failure, every number and kind of layers", "why_tests_cant": "Failures at every point of every call; tests use streams that do not fail.", "anchors": ["goost/magma/CFBSink.cpp: CFBSink::write", "goost/magma/CFBSource.cpp: CFBSource::read"]}
{"id": "C70", "title": "Decrypting data that keep arriving", "statement": "A CFBSource can be read while its ciphertext is still being appended, in whole blocks: a read returns what it asks for or what has arrived, an empty or short read is not final, and the pieces together are the beginning of the decryption of everything that arrives.", "quantifier": "every key and IV, every history of arrivals and reads, all sizes", "why_tests_cant": "Histories of arrivals and reads are unbounded; tests use complete data.", "anchors": ["goost/magma/CFBSource.cpp: CFBSource::read", "goost/gost89/CFBSource.cpp: CFBSource::read"]}
{"id": "C71", "title": "The authentication code can be asked for again", "statement": "value() of an Imit can be called any number of times and gives the same code. (False of the code over sources from which data are consumed: the second call reads outside of an empty vector. True if the position is kept in the source object.)", "quantifier": "every key, every data, every source", "why_tests_cant": "All data and sources; tests call value() once per object or use in-memory sources.", "anchors": ["goost/magma/Imit.cpp: Imit::value"]}
{"id": "C72", "title": "Decryption takes no more than it needs", "statement": "Reads of any sizes from a CFBSource, in any state, take exactly the blocks needed for the sum of the sizes, beyond what is decrypted already, from the underlying source and leave it right behind them; each returns as many bytes as it asked for. So data following the ciphertext in the same stream are still there to be read.", "quantifier": "every key, every state of the CFBSource, every source that has the blocks, every sequence of sizes", "why_tests_cant": "All sizes and sources.", "anchors": ["goost/magma/CFBSource.cpp: CFBSource::read", "goost/gost89/CFBSource.cpp: CFBSource::read"]}
{"id": "C73", "title": "Malformed native keys and containers are rejected", "statement": "A key given as a vector of other than eight words, or a container whose key is not 32 bytes or whose table is not 64 bytes long, is rejected with an exception. (False of the code: fewer than eight words are read out of bounds, surplus words are ignored, a container's short key or table is padded with zeroes, an empty or a too long one is undefined behaviour. With eight words the key is usable.)", "quantifier": "every list of words, every container content", "why_tests_cant": "All lengths and contents; a test that happens to read out of bounds proves nothing.", "anchors": ["goost/magma/KeyDataNative.cpp: KeyDataNative", "goost/magma/LazyKey.cpp: LazyKey", "goost/magma/ECBSource.cpp: ECBSource::ECBSource", "goost/magma/Container.h: Container"]}
{"id": "C74", "title": "Malformed substitution tables are rejected", "statement": "A substitution table of the wrong shape, or with entries that are not four-bit numbers, is rejected. (False of the code: entries above 15 spill into neighbouring digits, a short packed table is read out of bounds, surplus rows are ignored. For well-formed tables the substitution is the one described.)", "quantifier": "every table of every shape, every entry", "why_tests_cant": "All tables; tests use the published ones.", "anchors": ["goost/magma/SboxNibble.cpp: SboxNibble", "goost/magma/SboxByte64Tab.cpp: SboxByte64Tab", "goost/magma/SboxByte.cpp: SboxByte"]}
{"id": "C75", "title": "Malformed block texts are rejected", "statement": "A text that is not exactly 16 (magma) or 32 (kuznyechik) hexadecimal digits is rejected as a block. (False of the code: surplus characters are ignored, and characters after a valid beginning of a half are dropped. A text one of whose halves begins with a character that cannot begin a number is rejected.)", "quantifier": "every text", "why_tests_cant": "All texts of all lengths.", "anchors": ["goost/magma/BlkString.cpp: BlkString", "goost/kuznyechik/BlkString.cpp: BlkString"]}
{"id": "C76", "title": "What repeated keys and initialization vectors reveal", "statement": "Under one key and initialization vector, CFB ciphertexts of two messages agree in their first n blocks exactly if the messages do, and the XOR of the first blocks that may differ is the XOR of the message blocks; CTR ciphertexts differ everywhere by the XOR of the messages; two ECB blocks of a message are equal exactly if their ciphertexts are.", "quantifier": "every key, initialization vector, pair of messages, division into writes, and block position", "why_tests_cant": "All pairs of messages and all positions.", "anchors": ["goost/magma/CFBSink.cpp: CFBSink::write", "goost/gost89/CFBSink.cpp: CFBSink::write", "goost/magma/ECBSink.cpp: ECBSink::write", "goost/kuznyechik/StCTREncrypted.cpp: StCTREncrypted::iter"]}
{"id": "C77", "title": "The test source supplies the words of its text", "statement": "The source of the tests, made of a text with hexadecimal digits, supplies the 64-bit words the digits make up, low byte first, whatever else is in the text; a read of a multiple of eight bytes gives exactly so many bytes or what is left. A read of another size gives more than was asked for.", "quantifier": "every text, every size of read, every history of reads", "why_tests_cant": "All texts and sizes; the tests use the source rather than test it.", "anchors": ["test/Hex64Source.cpp: Hex64Source::read"]}
{"id": "C78", "title": "The test sink and block texts are exact", "statement": "The sink of the tests keeps all that is written to it, its text is that of the bytes, and two contents have the same text only if they are equal; a block's text is the hexadecimal number of the block, a block read back from it is the same, and two blocks compare as equal exactly if their values are.", "quantifier": "every content of the sink, every block of both ciphers", "why_tests_cant": "All values; if it failed for one, tests would pass wrongly.", "anchors": ["test/TestSink.cpp: TestSink::write", "test/TestSink.cpp: TestSink::asHexString", "test/magma/ReprBlock.cpp: ReprBlock::asString", "test/kuznyechik/ReprBlock.cpp: ReprBlock::asString", "test/magma/TestBlockEqual.cpp: TestBlockEqual"]}
{"id": "C79", "title": "A passing comparison means the result is the expected text", "statement": "The comparison of the tests passes exactly if the result is the expected text, case and characters other than digits aside. (False of the code: a result with a surplus passes, a result that is too short is read out of bounds. Holds for results of the expected length.)", "quantifier": "every expected text, every result", "why_tests_cant": "All pairs of texts: the tests themselves rely on it.", "anchors": ["test/HexMatch.cpp: HexMatch::match", "test/SourceMatch.cpp: SourceMatch::match"]}
{"id": "C80", "title": "The test harness shows what the streams compute", "statement": "The text the tests obtain from a CFB or ECB sink or source over the source of a text is that of the mode's result on the words of the text; the comparison with an expected text of as many words passes exactly if the words are those of the result.", "quantifier": "every key, initialization vector, text and expected text", "why_tests_cant": "All texts and keys: a test of the harness settles one.", "anchors": ["test/TestSinkText.cpp: TestSinkText::asString", "test/SourceText.cpp: SourceText::asString", "test/HexMatch.cpp: HexMatch::match"]}
{"id": "C81", "title": "The test container is the key of its text", "statement": "A container of the tests made of 64 hexadecimal digits is the same key as the text itself, and any other text is rejected. (False of the code: among 64 characters white space leads to reading uninitialised characters, and other characters can be accepted. Texts of another length are rejected.)", "quantifier": "every text", "why_tests_cant": "All texts, digits and others.", "anchors": ["test/magma/HexContainer.cpp: HexContainer::key", "test/magma/HexContainer.cpp: HexContainer::sbox"]}
{"id": "C82", "title": "Finalizing an encrypting sink finalizes the sink below", "statement": "When finalize() of an encrypting sink returns, what the sink below had buffered has come out. (False of the code: finalize() returns the sink below without finalizing it. If the caller finalizes the sink that was returned, the whole ciphertext comes out.)", "quantifier": "every key, initialization vector, data of whole blocks, division into writes", "why_tests_cant": "All data and divisions, and a sink below that buffers; the tests use one that does not.", "anchors": ["goost/magma/ECBSink.cpp: ECBSink::finalize", "goost/magma/CFBSink.cpp: CFBSink::finalize", "goost/gost89/CFBSink.cpp: CFBSink::finalize"]}
{"id": "C83", "title": "What the gost89 authentication codes of messages say about another message", "statement": "Whoever knows the gost89 authentication code of a message of whole blocks (at least two) and that of a message that begins with a block x knows, without the key, the code of a third message: the first one, then x xored with the first code, then the rest of the second. The code is therefore no authentication of messages of different lengths.", "quantifier": "every key, every such pair of messages", "why_tests_cant": "The relation is between codes of infinitely many messages under all keys.", "anchors": ["goost/gost89/DataImit.cpp: DataImit::value"]}
{"id": "C84", "title": "Keys with special structure", "statement": "If the eight words of a magma key read the same backwards, encryption and decryption coincide and encrypting twice changes nothing. Keys that differ in the highest bits of all words give, for blocks that differ in the highest bits of both halves, results that differ in these bits; so do the CFB ciphertexts of the same data for initialization vectors that differ in these bits, and the gost89 authentication codes of messages whose first blocks do. All for every substitution.", "quantifier": "every key, substitution, block, initialization vector and message", "why_tests_cant": "All keys and blocks; relations between different keys.", "anchors": ["goost/magma/BlkEncrypted.cpp: BlkEncrypted::value", "goost/magma/BlkDecrypted.cpp: BlkDecrypted::value", "goost/magma/LazyKey.cpp: LazyKey::transform"]}
{"id": "C85", "title": "Altered ciphertext is accepted and alters the data predictably", "statement": "Every byte string of whole blocks is decrypted without an error to data of the same length, different ones to different data. A ciphertext cut off at a block gives the data cut off there; ECB blocks left out, repeated or rearranged give the data blocks so arranged; CFB blocks behind other blocks give the same data after the first two (gost89: one); bits changed in a CTR stream are changed in the data.", "quantifier": "every key, initialization vector, ciphertext and alteration", "why_tests_cant": "All ciphertexts and alterations.", "anchors": ["goost/magma/CFBSource.cpp: CFBSource::read", "goost/gost89/CFBSource.cpp: CFBSource::read", "goost/magma/ECBSource.cpp: ECBSource::read", "goost/kuznyechik/StCTREncrypted.cpp: ItCTREncrypted::value"]}
{"id": "C86", "title": "Failures of kuznyechik streams and keys reach the caller", "statement": "If a stream throws at some block, the CTR stream over it shows the encryptions of the blocks before and then throws the same exception, and the authentication code throws it; there is never a code for a part of the data. If iter() of the stream throws, both throw. If every use of the key throws, every value() of the CTR stream and the code throw.", "quantifier": "every stream, every position and kind of failure (last, value, next, size), every key", "why_tests_cant": "All positions and kinds of failure.", "anchors": ["goost/kuznyechik/StCTREncrypted.cpp: ItCTREncrypted::value", "goost/kuznyechik/StCTREncrypted.cpp: ItCTREncrypted::next", "goost/kuznyechik/Imit.cpp: Imit::value"]}
{"id": "C87", "title": "The magma authentication code covers all data of the source", "statement": "Whatever sizes of pieces the source returns from its reads, the magma authentication code is that of all its data. (False of the code: a read that returns less than a block ends the message though the source has more; more than a block is undefined. Holds for pieces of whole blocks.)", "quantifier": "every source, data and division into pieces", "why_tests_cant": "All divisions; the sources of the tests always return what is asked for.", "anchors": ["goost/magma/Imit.cpp: Imit::value"]}
{"id": "C88", "title": "The work is proportional to the amount of data", "statement": "Computing an authentication code of n blocks, or reading an encrypted stream of n blocks, takes a number of block evaluations at most proportional to n. (False of the code for CTR streams: block number n evaluates n counter objects, so that reading all blocks is quadratic. Holds for both authentication codes.)", "quantifier": "every key, stream, data and state of the caches", "why_tests_cant": "All sizes; the tests use four blocks.", "anchors": ["goost/kuznyechik/StCTREncrypted.cpp: ItCTREncrypted::next", "goost/kuznyechik/BlkIncremented.cpp: BlkIncremented::value", "goost/kuznyechik/Imit.cpp: Imit::value", "goost/magma/Imit.cpp: Imit::value"]}
{"id": "C89", "title": "What an encryption accesses does not depend on secrets", "statement": "The table entries that are accessed and the branches that are taken during an encryption depend neither on the key nor on the data. (False of the code: for both ciphers the accesses of one encryption of a known block determine the whole key; for kuznyechik the branches alone do too. Only the number of these steps does not depend on secrets.)", "quantifier": "every key, block and earlier use of the key, every substitution table", "why_tests_cant": "The accesses are not visible to a test, and all keys are compared.", "anchors": ["goost/magma/SboxNibble.cpp: SboxNibble::transform", "goost/magma/SboxByte64Tab.cpp: SboxByte64Tab::translate", "goost/magma/LazyKey.cpp: LazyKey::transform", "goost/kuznyechik/BlkS.cpp: BlkS::value", "goost/kuznyechik/BlkR.cpp: BlkR::gmul"]}
{"id": "C90", "title": "Results do not depend on the byte order of the machine", "statement": "With the same key and parameters, the same bytes are encrypted to the same bytes and have the same authentication code on a little-endian and on a big-endian machine, so that data written on one machine can be read on another, and on every machine what was encrypted can be decrypted. (False of the code: ECB, CFB from the third block on (gost89: the second), both authentication codes and the 128-bit cipher give other results on a big-endian machine, and there ECB does not read back what it wrote.)", "quantifier": "every key, register, message and division into pieces, both byte orders", "why_tests_cant": "Tests run on one machine; all messages and keys are compared.", "anchors": ["goost/magma/BlkRaw.cpp: BlkRaw::BlkRaw", "goost/magma/ECBSink.cpp: ECBSink::write", "goost/magma/ECBSource.cpp: ECBSource::read, ECBSource::makeKey", "goost/magma/CFBSink.cpp: CFBSink::write", "goost/magma/CFBSource.cpp: CFBSource::read", "goost/magma/Imit.cpp: Imit::value", "goost/gost89/CFBSink.cpp: CFBSink::write", "goost/gost89/CFBSource.cpp: CFBSource::read", "goost/gost89/DataImit.cpp: DataImit::value", "goost/kuznyechik/BlkS.cpp: BlkS::value", "goost/kuznyechik/BlkR.cpp: BlkR::value"]}
{"id": "C91", "title": "The round keys of the 128-bit cipher are those of the standard", "statement": "The iterated key built from two blocks for a range of iteration numbers is the first block after the corresponding Feistel steps of the key schedule of GOST R 34.12-2015; the ten round keys built from the two halves of any key are the round keys of the standard, in order; the last two round keys determine the whole key; with an empty range the first block comes back unchanged. With numbers of type int this holds for every range that does not contain the largest int, and is undefined otherwise.", "quantifier": "every pair of blocks that have values, every range of numbers, every width of int, every key", "why_tests_cant": "Tests compare two or three round keys of one key; all 256-bit keys and all ranges are quantified.", "anchors": ["goost/kuznyechik/BlkIterKey.cpp: BlkIterKey::value, BlkIterKey::generate", "goost/kuznyechik/Key.cpp: Key::Key"]}
{"id": "C92", "title": "Texts denote the same key only if they differ in letter case alone", "statement": "Two texts of 64 hexadecimal digits give the same magma key (the same answer of every subkey) exactly if they are equal up to the case of the letters; one question to each subkey is enough to tell different keys apart. The same holds for the first two round keys of the 128-bit cipher, for block texts of equal length of both ciphers and, with an injective substitution, for keys of native words.", "quantifier": "every pair of texts of hexadecimal digits, every pair of lists of eight words", "why_tests_cant": "All 16^64 texts are compared; tests use one spelling of one key.", "anchors": ["goost/magma/KeyDataString.cpp: KeyDataString::key", "goost/magma/LazyKey.cpp: LazyKey::LazyKey, LazyKey::transform", "goost/kuznyechik/KeyDataString.cpp: KeyDataString::high, KeyDataString::low", "goost/magma/BlkString.cpp: BlkString::value", "goost/kuznyechik/BlkString.cpp: BlkString::value"]}
{"id": "C93", "title": "The old object may be used again after a call", "statement": "A caller who ignores the object that write or read returns and goes on with the old one gets the same data as one who uses the returned object. (False of CFB: every piece is then encrypted or decrypted from the initial register, the XOR of the first blocks of pieces is revealed, and pieces shorter than a block are lost.) For ECB it holds, and reading again from an object whose position is in the object gives the same bytes again.", "quantifier": "every key, initialization vector, data, division into pieces and file", "why_tests_cant": "Tests never use an object twice; all histories are quantified.", "anchors": ["goost/magma/CFBSink.cpp: CFBSink::write", "goost/magma/CFBSource.cpp: CFBSource::read", "goost/magma/ECBSink.cpp: ECBSink::write", "goost/magma/ECBSource.cpp: ECBSource::read", "goost/gost89/CFBSink.cpp: CFBSink::write", "goost/gost89/CFBSource.cpp: CFBSource::read"]}
{"id": "C94", "title": "What the initialization vector decides", "statement": "One message encrypted with two initialization vectors: with the two-block CFB of magma the ciphertext blocks 0, 2, 4, … agree exactly if the left halves of the vectors agree, and the blocks 1, 3, 5, … exactly if the right halves do; with the CFB of the old algorithm and with the counter mode every block differs if the vectors differ. One ciphertext decrypted with two vectors: only the first two blocks (the first block for the old algorithm) can differ, and they do differ where the halves differ.", "quantifier": "every key, message, ciphertext, pair of vectors and position", "why_tests_cant": "Tests use one vector; the statement compares all pairs at every position.", "anchors": ["goost/magma/CFBSink.cpp: CFBSink::CFBSink, CFBSink::write", "goost/magma/CFBSource.cpp: CFBSource::CFBSource, CFBSource::read", "goost/gost89/CFBSink.cpp: CFBSink::write", "goost/gost89/CFBSource.cpp: CFBSource::read", "goost/kuznyechik/StCTREncrypted.cpp: StCTREncrypted::iter"]}
{"id": "C95", "title": "Authentication codes of messages with a common ending", "statement": "Two messages of whole blocks (of equal or different lengths) have equal authentication codes exactly if the codes are still equal after the same ending is appended to both. So equal codes stay equal under every common ending, and different codes are never made equal by one.", "quantifier": "every key, every pair of messages of whole blocks (not empty; at least 16 bytes for the old algorithm), every ending (whole blocks for the 128-bit cipher, whose streams in memory have no partial blocks)", "why_tests_cant": "Quantifies over all messages and endings; a test compares two codes.", "anchors": ["goost/magma/Imit.cpp: Imit::value", "goost/gost89/DataImit.cpp: DataImit::value", "goost/kuznyechik/Imit.cpp: Imit::value"]}
{"id": "C96", "title": "The linear layer of the 128-bit cipher spreads every difference as far as possible", "statement": "If two blocks differ, the number of bytes in which they differ and the number of bytes in which their images under the linear transformation differ are together at least 17, the largest number possible; in particular blocks that differ in one byte have images that differ in all 16. The same bound holds for a whole round with any round key. In a whole encryption, with any round keys, at least 69 of the 144 bytes that are substituted differ, some in every round.", "quantifier": "every pair of different blocks (2^128 values each), every round key", "why_tests_cant": "One wrong coefficient leaves the transformation linear and invertible, and only pairs of special blocks show the loss; no test set covers the pairs.", "anchors": ["goost/kuznyechik/BlkL.cpp: BlkL::value, BlkL::transform", "goost/kuznyechik/BlkR.cpp: BlkR::value", "goost/kuznyechik/Key.cpp: Key::encrypt"]}
{"id": "C97", "title": "What every text means as a key or a block", "statement": "Every text, of digits or not, has a determined meaning. Magma key: a text of another length than 64 is rejected at every use; with 64 characters each eight characters stand for the hexadecimal number they begin with (after white space, a sign and 0x, all optional; what follows the digits is ignored), for zero if they begin with none, and if eight of them are all blank the use is undefined. Key of the 128-bit cipher: less than 32 characters are rejected by the constructor; otherwise the four quarters (the second half filled with zeros on the left) are such numbers, and if one quarter begins with none every encryption throws invalid_argument. Block texts of both ciphers: likewise with two halves.", "quantifier": "every text of any length and any characters, every block encrypted with it", "why_tests_cant": "There are infinitely many texts; tests use a few well-formed ones.", "anchors": ["goost/magma/KeyDataString.cpp: KeyDataString::key", "goost/magma/LazyKey.cpp: LazyKey::LazyKey, LazyKey::transform", "goost/magma/BlkString.cpp: BlkString::value", "goost/kuznyechik/KeyDataString.cpp: KeyDataString::high, KeyDataString::low", "goost/kuznyechik/BlkString.cpp: BlkString::value", "goost/kuznyechik/Key.cpp: Key::Key"]}
{"id": "C98", "title": "How the modes are related", "statement": "CFB of the 64-bit cipher with the two halves of an initialization vector is two streams of gost89 CFB, one block of each in turn: the even blocks with the left half, the odd ones with the right half, for encryption and decryption. A CFB ciphertext is the message XOR what an ECB sink with the same key writes for the initialization vector followed by that ciphertext. Layers of CTR encryption of the 128-bit cipher, with any keys and initialization vectors, may be put in either order.", "quantifier": "every key, initialization vector, message, way of splitting it, underlying sink, source and stream", "why_tests_cant": "Relations between two or three long computations for all inputs.", "anchors": ["goost/magma/CFBSink.cpp: CFBSink::write", "goost/magma/CFBSource.cpp: CFBSource::read", "goost/gost89/CFBSink.cpp: CFBSink::write", "goost/gost89/CFBSource.cpp: CFBSource::read", "goost/magma/ECBSink.cpp: ECBSink::write", "goost/kuznyechik/StCTREncrypted.cpp: StCTREncrypted::iter, ItCTREncrypted::value"]}
{"id": "C99", "title": "Objects live exactly as long as they can be reached", "statement": "After every history of making objects, copying, passing on and destroying pointers to them and using streams and iterators, an object exists exactly if the pointers that the program still holds lead to it through members; when the program holds none, nothing is left; no call goes through a pointer to a destroyed object; the members of an object never change. next() and last() of a memory iterator that is held, wrapped in any number of CTR iterators, dereference null exactly if nothing that is held leads to the memory stream.", "quantifier": "every history of operations of any length, every object", "why_tests_cant": "Orders of creation, use and destruction cannot be enumerated by tests; leaks have no visible effect.", "anchors": ["goost/kuznyechik/StMemory.cpp: ItMemory, StMemory::next_iter", "goost/kuznyechik/StCTREncrypted.cpp: ItCTREncrypted, StCTREncrypted::iter", "goost/kuznyechik/Imit.h: Imit", "goost/magma/CFBSink.h: CFBSink", "goost/magma/BlkXored.h: BlkXored", "goost/magma/LazyKey.h: LazyKey"]}
{"id": "C100", "title": "Cipher feedback can be taken up again from saved values", "statement": "A CFB sink made by the constructor that takes pending bytes behaves as if these bytes had been written first; so encryption taken up again from the last blocks of the ciphertext and the bytes not yet sent, by another object in another process, continues the ciphertext. A CFB source made with pending bytes supplies them and then the decrypted bytes; so decryption can start at any byte.", "quantifier": "every key, register, list of pending bytes, way of splitting the data, sink and source", "why_tests_cant": "The point at which a stream is interrupted is arbitrary; the constructors are not called by the tests at all.", "anchors": ["goost/magma/CFBSink.h: CFBSink::CFBSink", "goost/magma/CFBSink.cpp: CFBSink::write, CFBSink::finalize", "goost/magma/CFBSource.h: CFBSource::CFBSource", "goost/magma/CFBSource.cpp: CFBSource::read", "goost/gost89/CFBSink.cpp: CFBSink::write, CFBSink::finalize", "goost/gost89/CFBSource.cpp: CFBSource::read"]}
{"id": "C101", "title": "A memory stream can be read from any place", "statement": "next_iter(offset) of a memory stream, for every offset in bytes: null at and after the end of the data, a read outside the vector if one word is left, otherwise an iterator whose blocks are the pairs of words from word offset/8 on; n times next() of it is next_iter(offset + 16 n). All this also holds where the positions are numbers of type size_t, whose sums wrap around, for every vector that fits into the address space.", "quantifier": "every vector, offset, number of steps and width of size_t", "why_tests_cant": "Offsets and vectors are unbounded; the tests only use the beginning of a stream.", "anchors": ["goost/kuznyechik/StMemory.h: StMemory::next_iter", "goost/kuznyechik/StMemory.cpp: StMemory::next_iter, ItMemory::next"]}
{"id": "C102", "title": "Tables of bytes can be supplied for the substitution", "statement": "A substitution made of four table objects replaces each byte of every word by what its table says for that byte; a table needs to be defined for the numbers 0 to 255 only.", "quantifier": "every four tables, every word", "why_tests_cant": "All words and all tables of the user, not only the built-in tables.", "anchors": ["goost/magma/SboxByte.h: SboxByte::Tab, SboxByte::SboxByte", "goost/magma/SboxByte.cpp: SboxByte::transform"]}
{"id": "C103", "title": "Keys from containers of the user", "statement": "Making an ECBSource from a container calls its key() once and then its sbox() once, during construction and never later; what they throw comes out of the constructor. If they return 32 and 64 bytes the source opens every stream written with the same key, given as words or as digits, and the same packed tables. mask() is never called, so a key kept under a mask is used as stored.", "quantifier": "every implementation of Container (with state, files, exceptions), every key and table, every stream", "why_tests_cant": "The container is code of the user; all of its behaviours, keys and streams cannot be tried.", "anchors": ["goost/magma/Container.h: Container", "goost/magma/ECBSource.cpp: ECBSource::ECBSource, ECBSource::makeKey"]}
{"id": "C104", "title": "A crash leaves a readable beginning", "statement": "If the device below a stack of encrypting sinks stops at any byte, it holds exactly the first bytes of the complete ciphertext, the caller gets an exception unless everything has arrived, and what is left reads back through the mirrored sources as the first whole blocks of the data. (False of the code for the reading if the crash was in the middle of a block: after the data before it the read accesses memory out of bounds. True if what is left is cut down to whole blocks.)", "quantifier": "every crash point (every number of bytes that reach the device, also in the middle of a write or during finalize), every stack of layers, every key, every history of writes", "why_tests_cant": "All crash points of all write histories of all stacks cannot be tried; tests crash at a few.", "anchors": ["goost/Sink.h: Sink", "goost/magma/CFBSink.cpp: CFBSink::write, CFBSink::finalize", "goost/magma/ECBSink.cpp: ECBSink::write", "goost/gost89/CFBSink.cpp: CFBSink::write", "goost/magma/CFBSource.cpp: CFBSource::read", "goost/magma/ECBSource.cpp: ECBSource::read"]}
{"id": "C105", "title": "The state of a key is not observable", "statement": "A key that keeps a state of its own (a cache that is filled at the first question, a file, a token) but always gives the same answers is as good as a key without a state: every ECB and CFB sink and source, magma or gost89, and every MAC does exactly the same with it, for the same results, the same exceptions and the same effects on the streams below. In particular the cache of a key given as text, filled during the first encryption, never shows.", "quantifier": "every key with any internal state and every invariant of it, every stream below, every history of writes and reads, every data", "why_tests_cant": "Internal states and histories are unbounded; tests see a few caches in a few states.", "anchors": ["goost/magma/Key.h: Key", "goost/magma/KeyCachedData.cpp: KeyCachedData::key", "goost/magma/LazyKey.cpp: LazyKey::transform", "goost/magma/ECBSink.cpp: ECBSink::write", "goost/magma/CFBSink.cpp: CFBSink::write, CFBSink::finalize", "goost/magma/CFBSource.cpp: CFBSource::read", "goost/magma/Imit.cpp: Imit::value", "goost/gost89/DataImit.cpp: DataImit::value"]}
{"id": "C106", "title": "A key that stops answering", "statement": "Encrypting a block asks the key for its words in the order of the standard, 32 questions and no more, and decrypting in the reverse order, an authentication code asks as many as its encryptions need; so if the key answers n questions and throws then (a token is withdrawn), a sink has handed down exactly the first n/32 blocks of the ciphertext, nothing of the next block, and the exception arrives at the caller, no authentication code is given; and a read that fails so has consumed nothing and can be repeated. (False of the code for reads: an ECBSource takes the block from the source below before it asks the key, and loses it; a CFBSource that fails in the middle of a read of several blocks loses those already read.)", "quantifier": "every number of answers, every key, every data, every stream below", "why_tests_cant": "A failure at every possible question of every run cannot be tried.", "anchors": ["goost/magma/BlkForwarded.cpp: BlkForwarded::value", "goost/magma/BlkBackwarded.cpp: BlkBackwarded::value", "goost/magma/EncryptionBase.cpp: EncryptionBase::transform", "goost/magma/ECBSink.cpp: ECBSink::write", "goost/magma/CFBSink.cpp: CFBSink::write", "goost/magma/CFBSource.cpp: CFBSource::read", "goost/magma/ECBSource.cpp: ECBSource::read", "goost/gost89/CFBSink.cpp: CFBSink::write", "goost/gost89/CFBSource.cpp: CFBSource::read", "goost/magma/Imit.cpp: Imit::value", "goost/gost89/DataImit.cpp: DataImit::value"]}
{"id": "C107", "title": "Streams of blocks that can be read only once", "statement": "The kuznyechik MAC and the CTR stream read a stream in one pass: for every block but the last they call last, value and next exactly once and in this order, for the last one last, value and size, and nothing else. So a stream behind which there is a file, a pipe or a device, whose blocks cannot be seen twice, is authenticated and encrypted as the standard says, through any number of CTR layers. If any of these calls throws, at any block, the exception arrives at the caller and nothing more is asked.", "quantifier": "every user-defined stream that acts on the outside world, every number of blocks, every key and iv, every point of failure", "why_tests_cant": "Iterators with effects and failures at any call are unbounded in number; tests use streams in memory that can be asked anything any number of times.", "anchors": ["goost/kuznyechik/Iterator.h: Iterator", "goost/kuznyechik/Stream.h: Stream", "goost/kuznyechik/Imit.cpp: Imit::value", "goost/kuznyechik/StCTREncrypted.cpp: ItCTREncrypted, StCTREncrypted::iter"]}
{"id": "C108", "title": "Running out of memory", "statement": "Whichever request for memory in a call is refused, the caller gets bad_alloc and never a wrong result: no other data, no other authentication code, no unfinished object. What has been handed down to the sink by then is a beginning of the ciphertext, in whole blocks. finalize is all or nothing. The failed call leaves no trace, so that it may be repeated.", "quantifier": "every point at which memory runs out, every data, every division into writes, every sink and source below, every key", "why_tests_cant": "The failing allocation can be any of unboundedly many, and tests do not make allocations fail.", "anchors": ["goost/magma/ECBSink.cpp: ECBSink::write", "goost/magma/ECBSource.cpp: ECBSource::read", "goost/magma/CFBSink.cpp: CFBSink::write, CFBSink::finalize", "goost/magma/CFBSource.cpp: CFBSource::read", "goost/magma/Imit.cpp: Imit::value", "goost/gost89/CFBSink.cpp: CFBSink::write, CFBSink::finalize", "goost/gost89/CFBSource.cpp: CFBSource::read", "goost/gost89/DataImit.cpp: DataImit::value"]}
{"id": "C109", "title": "A key of the 128-bit cipher asks its data once", "statement": "A key whose two halves come from objects of the user that do something when they are evaluated (a token, a prompt, a key server) asks each half, the first before the second and after the message has been read, until it answers once, and never again; an exception of a half gets to the caller and the half is asked again next time; every result is that of the standard for the answers given, whatever the objects would answer later. The same holds for programs that hold any number of iterators of counter-mode streams over streams that act on the outside world: every call makes the same call below, once, and value() then asks for the key.", "quantifier": "all histories of encryptions, counter-mode blocks, authentication codes and calls of counter-mode iterators, all streams, all behaviours of the two halves and of the blocks of the user, all states of the outside world", "why_tests_cant": "The number of questions depends on the whole history and on when the halves fail; tests use halves that always answer the same.", "anchors": ["goost/kuznyechik/Key.cpp: Key::Key, Key::encrypt", "goost/kuznyechik/BlkCached.cpp: BlkCached::value", "goost/kuznyechik/BlkIterKey.cpp: BlkIterKey::value", "goost/kuznyechik/Imit.cpp: Imit::value", "goost/kuznyechik/StCTREncrypted.cpp: ItCTREncrypted::value"]}
{"id": "C110", "title": "A key of the 128-bit cipher survives running out of memory", "statement": "Whichever request for memory is refused while a block is encrypted, a block of a counter-mode stream is read or an authentication code is computed, the caller gets bad_alloc and never a wrong value. The key can be used again: whatever attempts were made before and wherever each of them failed, with enough memory the next use has the result of the standard. What a failed attempt has learnt about the key is kept and is right, so that a half that has answered is not asked again.", "quantifier": "all sequences of attempts to encrypt, to read counter-mode blocks and to compute codes, with any amount of memory for each; all behaviours of the key data and of the blocks of the user", "why_tests_cant": "The refused request can be any of unboundedly many in each of any number of attempts, and round keys are cached by attempts that fail; tests do not make allocations fail.", "anchors": ["goost/kuznyechik/Key.cpp: Key::Key, Key::encrypt", "goost/kuznyechik/BlkCached.cpp: BlkCached::value", "goost/kuznyechik/BlkIterKey.cpp: BlkIterKey::value", "goost/kuznyechik/BlkL.cpp: BlkL::value", "goost/kuznyechik/Imit.cpp: Imit::value", "goost/kuznyechik/StCTREncrypted.cpp: ItCTREncrypted::value, ItCTREncrypted::next, StCTREncrypted::iter"]}
{"id": "C111", "title": "Several keys of the 128-bit cipher used in turns do not interfere", "statement": "A program that holds any number of keys and uses them in turns, to encrypt blocks, to read counter-mode streams and to compute codes, gets from each the results it would get from that key alone. The keys share nothing but the outside world their data act on. For keys given by texts every result is that of the standard for the key that was used.", "quantifier": "all families of keys with separate objects; all sequences of uses of them; all behaviours of the key data and of the blocks of the user", "why_tests_cant": "Keys cache their halves and round keys at the first use; confusion of two caches would show only in particular orders of uses of particular keys.", "anchors": ["goost/kuznyechik/Key.cpp: Key::Key, Key::encrypt", "goost/kuznyechik/BlkCached.cpp: BlkCached::value", "goost/kuznyechik/Imit.cpp: Imit::value", "goost/kuznyechik/StCTREncrypted.cpp: StCTREncrypted::iter"]}
{"id": "C112", "title": "A key of the 128-bit cipher can be derived from another key", "statement": "A key whose halves are encryptions of two blocks under a master key behaves as the key with those halves, however the uses of the two keys are interleaved. The blocks and the halves of the master key are read at the first use that needs them and never again. With a master key given by a text and two fixed blocks every result is that of the standard.", "quantifier": "all master keys, all blocks, all sequences of uses of the two keys; all behaviours of the key data and of the blocks of the user", "why_tests_cant": "The first use of one key runs through the caches of the other while they are being filled; every order of uses is another path.", "anchors": ["goost/kuznyechik/Key.cpp: Key::Key, Key::encrypt", "goost/kuznyechik/BlkCached.cpp: BlkCached::value", "goost/kuznyechik/BlkEncrypted.cpp: BlkEncrypted::BlkEncrypted, BlkEncrypted::value"]}
{"id": "C113", "title": "Threads share a key on processors with store buffers", "statement": "Threads that use one key, each with blocks of its own, get the results they would get alone, on processors that delay stores as well as on those that interleave accesses: where the stores of a thread become visible to the others in the order they were made (x86), and where they may become visible in another order (ARM). On every such processor it is so once the key has been used before the threads start.", "quantifier": "all programs of all threads; all keys and blocks; all orders of accesses and all moments at which stores become visible", "why_tests_cant": "Stores become visible late or out of order at moments chosen by the hardware; on the test machine the bad order never occurs.", "anchors": ["goost/kuznyechik/BlkCached.cpp: BlkCached::value", "goost/kuznyechik/Key.cpp: Key::encrypt", "goost/magma/KeyCachedData.cpp: KeyCachedData::key", "goost/magma/LazyKey.cpp: LazyKey::transform"]}
{"id": "C114", "title": "A key of the 64-bit cipher survives running out of memory", "statement": "Whichever request for memory is refused, in the key while it reads its text, in blocks, streams or codes, the caller gets bad_alloc and never a wrong result. A key that was interrupted while it read its text is not spoilt: after any history of uses, with whatever memory each of them had, the next use has the result of unlimited memory if there is enough memory for it. A key given as words, or read from a container, is made completely or not at all, and needs no memory from then on.", "quantifier": "all texts, words, containers and tables; all sequences of uses (blocks, ECB and CFB streams in both directions, authentication codes), each with any amount of memory; all sinks and sources; every point at which memory runs out", "why_tests_cant": "The key fills a cache word by word; only a failure between two words followed by further use shows whether the cache is trusted too early.", "anchors": ["goost/magma/KeyCachedData.cpp: KeyCachedData::key", "goost/magma/KeyDataString.cpp: KeyDataString::key", "goost/magma/LazyKey.cpp: LazyKey", "goost/magma/ECBSink.cpp: ECBSink::write", "goost/magma/ECBSource.cpp: ECBSource::read", "goost/magma/CFBSink.cpp: CFBSink", "goost/magma/CFBSource.cpp: CFBSource::read", "goost/magma/Imit.cpp: Imit", "goost/gost89/CFBSink.cpp: CFBSink", "goost/gost89/CFBSource.cpp: CFBSource", "goost/gost89/DataImit.cpp: DataImit", "goost/magma/ECBSource.cpp: ECBSource::makeKey", "goost/magma/KeyDataNative.cpp: KeyDataNative::key"]}
{"id": "C115", "title": "Giving up a pointer takes a bounded amount of stack", "statement": "When a program gives up a pointer to an object of the library (an iterator, a block, a sink, a source, a stream), the destructors that are called inside each other are as many as the program has put layers on each other, however much data has gone through the object.", "quantifier": "all histories of making objects, copying and giving up pointers and using streams and iterators; all orders in which an object may destroy its members; all amounts of data", "why_tests_cant": "The unit tests use a few blocks. The depth grows by one per block and overflows the stack only after very many; it has to be bounded for every amount of data.", "anchors": ["goost/kuznyechik/StCTREncrypted.cpp: ItCTREncrypted::next", "goost/kuznyechik/BlkIncremented.h: BlkIncremented", "goost/magma/Imit.cpp: Imit::value", "goost/magma/BlkEncrypted.cpp: BlkEncrypted", "goost/kuznyechik/Imit.cpp: Imit::value", "goost/magma/ECBSink.cpp: ECBSink::write", "goost/magma/CFBSink.cpp: CFBSink::write", "goost/gost89/CFBSink.cpp: CFBSink::write", "goost/magma/CFBSource.cpp: CFBSource::read"]}
{"id": "C116", "title": "Objects shared by threads live exactly as long as they can be reached", "statement": "Threads may share keys, blocks, streams, iterators, sinks and sources by copying pointers, pass them on to each other and give them up in any order: no object is used after its destruction or destroyed twice, an object exists exactly as long as some thread can get at it, nothing is left when all pointers have been given up, and destructors come to an end whatever the other threads do. An iterator of words may be used exactly while some pointer leads to its stream; whether it does may depend on the order in which threads take their steps.", "quantifier": "all numbers of threads, programs that make objects, copy, pass on and give up pointers, and all interleavings of their steps, also in the middle of destructors", "why_tests_cant": "Whether two threads that give up the last two pointers to an object destroy it once, twice or never depends on the interleaving of single operations on reference counts, which a test cannot choose.", "anchors": ["goost/kuznyechik/StMemory.cpp: ItMemory::next", "goost/kuznyechik/StMemory.cpp: StMemory::iter", "goost/kuznyechik/StCTREncrypted.cpp: ItCTREncrypted::next", "goost/magma/Key.cpp: Key", "goost/kuznyechik/Key.cpp: Key", "goost/magma/ECBSink.h: ECBSink"]}
{"id": "C117", "title": "A mutex around every use makes a shared key safe on every processor", "statement": "Threads that share a key and lock a mutex around every use get what each would get alone, for the two ciphers the results of the standards, also on processors that answer loads with old values; at no time are two of them inside the key, and they never deadlock. The mutex is needed: without it, a thread that begins after another has completed an encryption may encrypt under a key that is zero, or half zero. A key that has been used before the threads start needs no mutex.", "quantifier": "all numbers of threads, programs, interleavings, and all choices of old values that loads are answered with", "why_tests_cant": "Processors answer a load with an old value rarely and not on demand; which of the values a thread gets cannot be chosen by a test.", "anchors": ["goost/kuznyechik/BlkCached.cpp: BlkCached::value", "goost/magma/KeyCachedData.cpp: KeyCachedData::value"]}
{"id": "C118", "title": "A stream of words can be iterated only if a shared_ptr owns it, of which it knows", "statement": "iter() and next_iter() of a stream of words that is a variable, or belongs to a unique_ptr, throw bad_weak_ptr whenever the stream has a block there, and change nothing (with half a block there, depending on the compiler they read out of bounds instead); without words they give null. A copy of a stream is not shared, even if the original is; once a shared_ptr takes an object over it gives iterators, but not if that shared_ptr is made from a pointer to the base class, as when a unique_ptr<const Stream> is given to a counter mode stream or an Imit: then these throw bad_weak_ptr as well. No other call throws, every iterator that a program gets belongs to a stream that a shared_ptr has owned and has two neighbouring words of it, and next() dereferences null exactly if no shared_ptr owns the stream any more. A stream with a shared_ptr lives exactly as long as one of them is left. A program that keeps to these rules meets no exception and no undefined behaviour.", "quantifier": "all histories of making, copying, taking over and destroying streams and of using iterators, all data and offsets, both orders of evaluation of arguments", "why_tests_cant": "Whether a stream has an owner is decided by the whole history of the program, and the order of evaluation by the compiler.", "anchors": ["goost/kuznyechik/StMemory.h: StMemory", "goost/kuznyechik/StMemory.cpp: StMemory::iter", "goost/kuznyechik/StMemory.cpp: StMemory::next_iter", "goost/kuznyechik/StMemory.cpp: ItMemory::next", "goost/kuznyechik/Stream.h: Stream", "goost/kuznyechik/Imit.cpp: Imit::Imit", "goost/kuznyechik/StCTREncrypted.cpp: StCTREncrypted::StCTREncrypted"]}
{"id": "C119", "title": "Every call returns, unless it reads an endless stream", "statement": "If every single call of the objects that the user supplies returns or throws, so does every write, finalize and read of the sinks and sources, in any state, for any sizes and however few or many bytes the source below gives at a time, also if it is endless; so does every call of an iterator of counter mode, and the code of data in memory. The code of a source or stream returns or throws exactly if the source or stream is not endless: if there are not for ever another 8 bytes, or another block that is not the last one. Over an endless stream the stream of counter mode is endless as well, and whatever beginning of it is read is the ciphertext of the standard. Over an endless source the decrypting sources are endless as well, every read returns as many bytes as it asked for, and whatever beginning is read is the decryption. Keys made from a text, whatever it is, or from words meet the assumption.", "quantifier": "all sources, sinks and streams (misbehaving and endless ones too) whose single calls return, all keys, states, sizes and data", "why_tests_cant": "A test that waits cannot tell a call that never returns from a slow one, and an endless stream cannot be read to its end.", "anchors": ["goost/magma/CFBSource.cpp: CFBSource::read", "goost/gost89/CFBSource.cpp: CFBSource::read", "goost/magma/ECBSink.cpp: ECBSink::write", "goost/magma/CFBSink.cpp: CFBSink::write", "goost/gost89/CFBSink.cpp: CFBSink::write", "goost/gost89/DataImit.cpp: DataImit::value", "goost/magma/Imit.cpp: Imit::value", "goost/kuznyechik/Imit.cpp: Imit::value", "goost/kuznyechik/StCTREncrypted.cpp: StCTREncrypted::iter"]}
{"id": "C120", "title": "Texts of hexadecimal digits mean the same in every locale", "statement": "A key text of 64 hexadecimal digits and block texts of hexadecimal digits mean the same whatever locale is set at whatever time they are converted, also if it changes between or during uses, if in the locale no hexadecimal digit is white space, the decimal point or, where numbers are grouped, the separator of thousands; for block texts and keys of the 128-bit cipher only white space matters. In any other locale some text of digits has another meaning. Of texts with other characters the locale of the first use of the key decides.", "quantifier": "all locales, all texts of digits, all histories of uses and of changes of the locale", "why_tests_cant": "Tests run in one locale; the locale is state of the whole program which any other part of it may change at any time, and the keys convert their text when they are first used.", "anchors": ["goost/magma/KeyDataString.cpp: KeyDataString::key", "goost/magma/KeyCachedData.cpp: KeyCachedData::key", "goost/magma/BlkString.cpp: BlkString::value", "goost/kuznyechik/BlkString.cpp: BlkString::value", "goost/kuznyechik/Key.cpp: Key::Key"]}
{"id": "C121", "title": "What ciphertexts say about authentication codes under the same key", "statement": "If the key of the magma or kuznyechik authentication code is also used to encrypt (ECB or CFB, also the CFB of the old algorithm, with magma; CTR with kuznyechik), whoever knows one block of data with its ciphertext can tell, from any message of at least a block and without the key, a longer message with the same code: in front comes the block that the cipher was given (the data block, the register or the counter), and what the cipher made of it is added to the first block. So one key must not be used for both.", "quantifier": "every key, every encrypted data, place in it and initialization vector, every message", "why_tests_cant": "It relates the results of two classes for all keys and messages; a test with one key shows nothing about others.", "anchors": ["goost/magma/Imit.cpp: Imit::value", "goost/magma/ECBSink.cpp: ECBSink::write", "goost/magma/CFBSink.cpp: CFBSink::write", "goost/gost89/CFBSink.cpp: CFBSink::write", "goost/kuznyechik/Imit.cpp: Imit::value", "goost/kuznyechik/StCTREncrypted.cpp: StCTREncrypted::iter"]}
{"id": "C122", "title": "Threads run streams of their own over one shared key", "statement": "Threads that share one key made from text (magma, gost89) or one key of kuznyechik, each with sinks, sources, encrypted streams and authentication codes of its own, and that lock one mutex around every call of write, finalize, read, next and value, each do exactly what they would do alone: every ciphertext, plaintext and code is the one of the standard, whatever the other threads do and whatever old values the processor answers loads with; there is no deadlock. Without the mutex the same is true of a magma key once it has been used before the threads are started.", "quantifier": "every number of threads, all their streams, data, sizes of reads and writes and failing sinks and sources, every schedule, every choice of old values for loads", "why_tests_cant": "A test runs a few of the infinitely many schedules, on one processor.", "anchors": ["goost/magma/CFBSink.cpp: CFBSink::write", "goost/magma/CFBSource.cpp: CFBSource::read", "goost/magma/ECBSink.cpp: ECBSink::write", "goost/magma/ECBSource.cpp: ECBSource::read", "goost/magma/Imit.cpp: Imit::value", "goost/gost89/CFBSink.cpp: CFBSink::write", "goost/gost89/DataImit.cpp: DataImit::value", "goost/kuznyechik/StCTREncrypted.cpp: ItCTREncrypted::value", "goost/kuznyechik/Imit.cpp: Imit::value", "goost/magma/KeyCachedData.cpp: KeyCachedData::key", "goost/kuznyechik/BlkCached.cpp: BlkCached::value"]}
{"id": "C123", "title": "Threads share a key while memory runs out", "statement": "Threads that share a key get, for every block they encrypt, the encryption of the standard or bad_alloc; bad_alloc only if there was less memory than an encryption needs at most (a number that depends on the key's class alone, not on what has happened before). Encryptions that failed for want of memory, in this thread or another, leave nothing behind that could make a later result wrong: also not a cache filled in part. This holds for threads that are interleaved step by step, on processors that make the stores of a thread visible in order, and with a mutex around every encryption on every processor.", "quantifier": "every number of threads, their blocks, every schedule, every amount of memory at every request of every thread", "why_tests_cant": "All schedules together with all points at which memory may run out; a test runs a few schedules with memory to spare.", "anchors": ["goost/kuznyechik/BlkCached.cpp: BlkCached::value", "goost/kuznyechik/Key.cpp: Key::encrypt", "goost/magma/KeyCachedData.cpp: KeyCachedData::key", "goost/magma/KeyDataString.cpp: KeyDataString::key", "goost/magma/BlkEncrypted.cpp: BlkEncrypted::value"]}
{"id": "C124", "title": "Results do not depend on the machine, unless they are undefined", "statement": "Where the standard of C++ leaves the behaviour undefined (shifts of 32-bit words by 32 and more, unaligned loads), machines may differ. Sinks, sources, their stacks and the gost89 authentication code never do: they do exactly the same on every machine. For every other call - blocks of both ciphers, also of classes of the user, magma and kuznyechik authentication codes, encrypted streams of kuznyechik - two machines do exactly the same, or the call is undefined on one of them, which lacks something that the other has. What the standard defines, every machine does.", "quantifier": "every pair of machines, every key, sink, source, stream and block, also of classes of the user that act on the outside world, every state of the world", "why_tests_cant": "Tests run on one machine; here two are compared, on all inputs.", "anchors": ["goost/magma/BlkShifted.cpp: BlkShifted::value", "goost/magma/Imit.cpp: Imit::value", "goost/magma/CFBSink.cpp: CFBSink::write", "goost/magma/ECBSource.cpp: ECBSource::read", "goost/gost89/DataImit.cpp: DataImit::value", "goost/kuznyechik/BlkR.cpp: BlkR::value", "goost/kuznyechik/BlkRaw.cpp: BlkRaw::BlkRaw", "goost/kuznyechik/Imit.cpp: Imit::value", "goost/kuznyechik/StCTREncrypted.cpp: ItCTREncrypted::value"]}
{"id": "C125", "title": "The authentication code tells a full last block from a short one", "statement": "A message that ends in 1 to 7 bytes and the same message with zeros in place of the missing bytes have different magma authentication codes, unless the key encrypts the block of zeros to zeros; so the zero byte that completes a block is noticed (others are not, C34). More generally, after the same whole blocks, a full ending and a short one give the same code exactly if they differ, filled up, by the sum of the two auxiliary keys. Kuznyechik streams that show the same blocks, one with a full last block and one not, have different codes unless the key encrypts zeros to zeros. Keys that do so exist.", "quantifier": "every key, message and ending; streams of any class", "why_tests_cant": "Tests compare some codes; that two auxiliary keys are never equal is a fact about all keys.", "anchors": ["goost/magma/Imit.cpp: Imit::value", "goost/kuznyechik/Imit.cpp: Imit::value"]}
{"id": "C126", "title": "A key may be used again while it is being asked for", "statement": "Objects of the user that supply a key may themselves use the library, also the very key they supply, before they answer (a half of a key that asks somebody while the program goes on, say), and these uses may be nested. If every object has one answer, or refuses, then every result in every history is that of the standard, or the refusal, or the stack was not enough. Once one encryption has returned, the key is settled: it is the one that encryption used, and nobody is asked again. If the first half of a kuznyechik key answers b to the use in between and a to the interrupted one, all results from then on are those of the key of b with a in the first round, which is wrong for every block unless a = b; a magma key is then a mixture of words of both answers. A half that always uses the key before it answers is never had, however much stack there is.", "quantifier": "every key, block, answer, nesting, depth of stack and history of calls; objects that see and change any world", "why_tests_cant": "Tests use keys that just return; a use inside a use is a matter of the order in which caches are written, for every nesting.", "anchors": ["goost/kuznyechik/BlkCached.cpp: BlkCached::value", "goost/kuznyechik/Key.cpp: Key", "goost/magma/KeyCachedData.cpp: KeyCachedData::key", "goost/magma/LazyKey.cpp: LazyKey::transform"]}
{"id": "C127", "title": "When the data behind an object are read", "statement": "Blocks are views. Making a block or a key from other blocks reads nothing; a value is computed from what the underlying blocks show at the moment of the call, so a block of the user may change before and between calls. There are three exceptions, and no others: a copy made with BlkRaw(block) keeps what the block showed when the copy was made; a cached block keeps what its block showed when the cached block was used for the first time, by whatever call; a key keeps what its two halves showed when it was used for the first time, so changes of a key after its first use are not seen by any block encrypted with it. This is so in every program that makes such objects from each other, shared in any way, changes its variables and asks for values in any order.", "quantifier": "every program over variables, blocks and keys: any objects, sharing, changes and calls in any order, any values", "why_tests_cant": "A test fixes one program; which call is the first to use an object depends on everything that was made and asked before it.", "anchors": ["goost/kuznyechik/BlkCached.cpp: BlkCached::value", "goost/kuznyechik/BlkRaw.cpp: BlkRaw", "goost/kuznyechik/Key.cpp: Key", "goost/kuznyechik/BlkEncrypted.cpp: BlkEncrypted::value", "goost/kuznyechik/BlkIncremented.cpp: BlkIncremented::value"]}
{"id": "C128", "title": "When the data behind blocks and keys of the 64-bit cipher are read", "statement": "Blocks of the 64-bit cipher are views: making one reads nothing, and a value is computed from what the underlying blocks show at the moment of the call; a copy made with BlkRaw(block) keeps what was shown when it was made. Which words a key works with depends on what it was made from. With key data of the user it works with the words they show at the moment of the call, so a change of the data is seen by every block and transformation that uses the key. With cached data it works with the words that were shown when the key was used for the first time, by whatever call, and changes after that are never seen. With a vector it works with the words that were in the vector when the key was made. This is so in every program that makes such objects from each other, shared in any way, changes its variables and its key data, and asks for values and transformations in any order.", "quantifier": "every program over variables, key words, blocks and keys: any objects, sharing, changes and calls in any order, any values", "why_tests_cant": "A test fixes one program; which call is the first to use a key depends on everything that was made and asked before it.", "anchors": ["goost/magma/KeyCachedData.cpp: KeyCachedData::key", "goost/magma/LazyKey.cpp: LazyKey::transform", "goost/magma/KeyDataNative.cpp: KeyDataNative", "goost/magma/BlkRaw.cpp: BlkRaw", "goost/magma/BlkEncrypted.cpp: BlkEncrypted::value", "goost/magma/EncryptionBase.cpp: EncryptionBase::transform"]}
{"id": "C129", "title": "The key of a stream may be changed between its calls", "statement": "The key of a stream may consult data that the program changes between its calls (key meshing, rotation of keys). A CFB sink encrypts every block with the key in force when the last byte of the block is written, wherever the boundaries of the pieces are, and goes on with its register; an ECB sink encrypts the blocks of a piece with the key in force when it is written. A CFB source decrypts every block with the key in force when the first byte of the block is asked for, and an ECB source with the key in force at the call. What was written is read back whenever these keys agree for every block, in particular by a reader who does the same as the writer if the key is changed at block boundaries only. A change within a block is lost: a reader who does the same as the writer decrypts that block with another key than the writer has used.", "quantifier": "every sequence of writes (reads) of any sizes and of changes of the key in between, every key, substitution, initialisation vector, data, sink and source", "why_tests_cant": "A test fixes one sequence of calls and changes; which key meets which block depends on all the sizes before it.", "anchors": ["goost/magma/CFBSink.cpp: CFBSink::write, CFBSink::finalize", "goost/magma/CFBSource.cpp: CFBSource::read", "goost/gost89/CFBSink.cpp: CFBSink::write, CFBSink::finalize", "goost/gost89/CFBSource.cpp: CFBSource::read", "goost/magma/ECBSink.cpp: ECBSink::write", "goost/magma/ECBSource.cpp: ECBSource::read", "goost/magma/LazyKey.cpp: LazyKey::transform"]}
{"id": "C130", "title": "When the data behind a stream are read", "statement": "Streams, iterators and authentication codes of the 128-bit cipher are views. A program may make keys, streams of its own variables, streams in memory and encrypted streams over each other, get iterators and move them on, change its variables, and ask iterators and codes, in any order. An iterator shows what the data are when it is asked, not when it or its stream was made; a stream in memory keeps what it was made with; a key keeps what its data were when it encrypted for the first time, and neither the making of streams and iterators nor last() and size() encrypt. One iterator of an encrypted stream that is asked twice uses the same gamma both times: if the data have been changed in between, the sum of the two answers is the sum of the old data and the new.", "quantifier": "every program of such steps, of any length, with any nesting and sharing of streams and any initial contents of the variables", "why_tests_cant": "A test fixes one order of making, changing and asking; which moment an answer belongs to depends on all the steps before it.", "anchors": ["goost/kuznyechik/StCTREncrypted.cpp: ItCTREncrypted, StCTREncrypted::iter", "goost/kuznyechik/StMemory.cpp: StMemory, ItMemory", "goost/kuznyechik/Imit.cpp: Imit::value", "goost/kuznyechik/Key.cpp: Key::Key", "goost/kuznyechik/BlkCached.cpp: BlkCached::value", "goost/kuznyechik/BlkEncrypted.cpp: BlkEncrypted::value"]}
{"id": "C131", "title": "How far differences and parities can be followed through the rounds", "statement": "How well two blocks can be followed through the rounds of the 128-bit cipher. Two blocks that differ in n bytes get a given difference after one round under at most one in 32^n of the 2^128 round keys, and for each n this bound is reached. Two different blocks get a given difference after two rounds under at most 2^176 of the 2^256 keys, and given differences after the first and after the second round under at most 2^171. A parity of bits of the result of a round that selects from t bytes agrees with a parity of bits of the data, for any round key, about as often as not: the two numbers differ by at most (7/32)^(17-t) of all blocks. A parity before the linear step and one after it that always agree select from at least 17 bytes together.", "quantifier": "every pair of blocks, every difference, every selection of bits, every round key; counts are over all round keys, all keys or all blocks", "why_tests_cant": "The counts range over 2^128 blocks and round keys and 2^256 keys, for every pair of blocks and every selection of bits.", "anchors": ["goost/kuznyechik/Key.cpp: Key::encrypt, Key::encryptStep", "goost/kuznyechik/BlkS.cpp: BlkS::value", "goost/kuznyechik/BlkL.cpp: BlkL", "goost/kuznyechik/BlkR.cpp: BlkR::value", "goost/kuznyechik/BlkXored.cpp: BlkXored::value"]}
{"id": "C132", "title": "How far differences can be followed through the rounds of the 64-bit cipher", "statement": "How well two blocks can be followed through the rounds of the 64-bit cipher with the substitution of the standard. Whatever two different words enter a round, at most a quarter of the 2^32 key words give their images a given difference, and a quarter is reached. Whatever the key, of three rounds in a row at most one gets the same word for both of two different blocks, so that of the 32 rounds of an encryption at least 21 get different words. Two different blocks show given differences after each of the eight rounds of BlkForwarded under at most 2^246 of the 2^256 keys, and a given difference after the eight rounds under at most 7/64 of them.", "quantifier": "every pair of words or blocks, every difference, every key; counts are over all key words or all keys", "why_tests_cant": "The counts range over 2^32 key words and 2^256 keys, for every pair of blocks and every difference.", "anchors": ["goost/magma/LazyKey.cpp: LazyKey::transform", "goost/magma/SboxR3412.cpp: SboxR3412::SboxR3412", "goost/magma/SboxNibble.cpp: SboxNibble::transform", "goost/magma/SboxTwisted.cpp: SboxTwisted::transform", "goost/magma/BlkForwarded.cpp: BlkForwarded::value", "goost/magma/BlkEncrypted.cpp: BlkEncrypted::value"]}
{"id": "C133", "title": "All ciphertexts but two determine the last two", "statement": "Encryption is an even permutation of the blocks: what it does is done by an even number of exchanges of two blocks. This holds for every key object of the 64-bit cipher that answers, also one defined by the user (BlkEncrypted, BlkDecrypted, BlkForwarded, BlkBackwarded, EncryptionBase), and for every key of the 128-bit cipher. So two keys under which all blocks but two have the same ciphertexts give these two the same as well, and no key exchanges two blocks and leaves the others as they are.", "quantifier": "every key (for the 64-bit cipher every implementation of Key that answers), every two blocks, every block", "why_tests_cant": "The statement is about the whole table of 2^64 or 2^128 ciphertexts, and about every key.", "anchors": ["goost/magma/BlkEncrypted.cpp: BlkEncrypted::value", "goost/magma/BlkDecrypted.cpp: BlkDecrypted::value", "goost/magma/BlkForwarded.cpp: BlkForwarded::value", "goost/magma/BlkBackwarded.cpp: BlkBackwarded::value", "goost/magma/EncryptionBase.cpp: EncryptionBase::transform", "goost/kuznyechik/Key.cpp: Key::encrypt", "goost/kuznyechik/BlkEncrypted.cpp: BlkEncrypted::value"]}
{"id": "C134", "title": "Eight rounds with a random key hide one block completely", "statement": "Whatever block is given to BlkForwarded (or BlkBackwarded), and whatever result is looked for: exactly 2^192 of the 2^256 keys give it, for every substitution that is a bijection, in particular that of the standard. So the result alone says nothing about the block. With a substitution that is no bijection this fails.", "quantifier": "every block, every result, every bijective substitution; counts are over all keys", "why_tests_cant": "The counts range over all 2^256 keys, for every block and every result.", "anchors": ["goost/magma/BlkForwarded.cpp: BlkForwarded::value", "goost/magma/BlkBackwarded.cpp: BlkBackwarded::value", "goost/magma/LazyKey.cpp: LazyKey::transform", "goost/magma/KeyDataNative.cpp: KeyDataNative::key", "goost/magma/SboxR3412.cpp: SboxR3412::transform"]}
{"id": "C135", "title": "Eight rounds with random tables can hardly be told from random answers", "statement": "Take a Key of the user that looks words up in eight tables, one for each index. Someone asks for q different blocks of BlkForwarded (or BlkBackwarded), choosing each after the earlier answers, and then applies any test to the answers. The share of the tables with which the test is passed differs from the share of all lists of q blocks that pass it by at most q^2 / 2^32. The same holds if it may also be asked which block BlkForwarded takes to a given one, which BlkBackwarded answers between two BlkSwapped. Asking for what is already known must be excluded.", "quantifier": "every number of questions, every way of choosing them, every test; shares are over all choices of the eight tables", "why_tests_cant": "The shares are over all contents of eight tables of 2^32 words, and the claim is for every strategy and every test.", "anchors": ["goost/magma/Key.h: Key::transform", "goost/magma/BlkForwarded.cpp: BlkForwarded::value", "goost/magma/BlkBackwarded.cpp: BlkBackwarded::value"]}
{"id": "C136", "title": "Several keys of the 128-bit cipher survive running out of memory", "statement": "A program holds any number of keys and uses them in turns, and any request for memory may be refused at any time. Each use does what it should with its key alone, or throws bad_alloc. A failed use leaves the other keys as they were, and what it has learnt about its own key is right. Whatever happened before, every key can be used again: with enough memory the next result is the one of that key alone, for keys given by texts that of the standard.", "quantifier": "all families of keys with separate objects; all sequences of uses of them, each with any amount of memory; all behaviours of the key data and of the blocks of the user", "why_tests_cant": "The refused request can be any of unboundedly many in uses of any of the keys, and keys fill their caches in uses that fail; tests do not make allocations fail.", "anchors": ["goost/kuznyechik/Key.cpp: Key::Key, Key::encrypt", "goost/kuznyechik/BlkCached.cpp: BlkCached::value", "goost/kuznyechik/BlkIterKey.cpp: BlkIterKey::value", "goost/kuznyechik/Imit.cpp: Imit::value", "goost/kuznyechik/StCTREncrypted.cpp: ItCTREncrypted::value, ItCTREncrypted::next, StCTREncrypted::iter"]}
{"id": "C137", "title": "A copy of a block or of a key is the original under another name", "statement": "A program makes blocks and keys of the 128-bit cipher, copies them with their copy constructors, copies the copies, and lets go of originals and copies whenever it wants. Every value it asks for is the one it would get if every copy were the original and nothing were let go of: a cached block and its copies read the block behind them once between them, and a key and its copies read the key data once between them, even if the copy was made before the first use and the original is gone. A second key made from the same data is not a copy: it reads the data at its own first use.", "quantifier": "all programs that make, copy and let go of blocks and keys, change the data behind blocks of the user and ask for values, in any order; all initial data", "why_tests_cant": "Copies can be made before or after caches are filled, of any object at any depth, and outlive the original in any order; tests never copy an object.", "anchors": ["goost/kuznyechik/BlkCached.h: BlkCached", "goost/kuznyechik/BlkCached.cpp: BlkCached::BlockCache::value", "goost/kuznyechik/Key.h: Key", "goost/kuznyechik/Key.cpp: Key::Key, Key::encrypt", "goost/kuznyechik/BlkEncrypted.h: BlkEncrypted", "goost/kuznyechik/Block.h: Block"]}
{"id": "C138", "title": "What the last sixteen rounds of the 64-bit cipher leave alone", "statement": "For every magma key that answers, eight rounds forwards followed by the same eight backwards and an exchange of the halves (the last sixteen of the 32 rounds of an encryption) undo themselves when done twice. Exactly 2^32 of the 2^64 blocks come out of them unchanged. So, whatever the key and the substitution, exactly 2^32 blocks are encrypted as if there were only the first sixteen rounds, and exactly 2^32 are decrypted as if there were only the last sixteen. If the words of the key read the same backwards, exactly 2^32 blocks are their own ciphertexts.", "quantifier": "every key that answers for every block and index, every substitution, all 2^64 blocks", "why_tests_cant": "An exact count over all 2^64 blocks for each key; tests encrypt a few blocks with one key.", "anchors": ["goost/magma/BlkEncrypted.cpp: BlkEncrypted::value", "goost/magma/BlkDecrypted.cpp: BlkDecrypted::value", "goost/magma/BlkForwarded.cpp: BlkForwarded::value", "goost/magma/BlkBackwarded.cpp: BlkBackwarded::value", "goost/magma/BlkSwapped.cpp: BlkSwapped::value"]}
{"id": "C139", "title": "Keys of eight equal words", "statement": "If all eight words of a magma key do the same, a block that is one round ahead of another (its halves are the second half exclusive or the transformed first half, and the first half) encrypts to a block that is one round ahead of the other's ciphertext in the same way, for every substitution; so for decryption. With the substitution of the standard, one such pair of blocks tells the key. With other keys it need not be so.", "quantifier": "every key that answers and whose words do the same, every substitution, every block; every pair of words", "why_tests_cant": "A relation between the encryptions of all pairs of blocks under all keys of a class.", "anchors": ["goost/magma/BlkEncrypted.cpp: BlkEncrypted::value", "goost/magma/BlkDecrypted.cpp: BlkDecrypted::value", "goost/magma/BlkForwarded.cpp: BlkForwarded::value", "goost/magma/BlkBackwarded.cpp: BlkBackwarded::value", "goost/magma/LazyKey.cpp: LazyKey::transform", "goost/magma/SboxR3412.cpp: SboxR3412::transform"]}
