# Formal model of donnie4w/gofer in Lean 4

## Layout

* `properties.jsonl`: the properties, in terms of the public API and its observable effects.
* `lean/Verif/Model/*.lean`: the model. Every definition cites the file and lines of /repo it models and says where it simplifies. Definitions marked "library" or "language" model code outside /repo.
* `lean/Verif/Spec/*.lean`: small specifications (maps, recency lists, ring successor, positional values, CBC, regions of a file ...). They do not import the model, except those called `...Rel`, which only give names to histories of calls of the model.
* `lean/Verif/Proof/*.lean`: invariants and helper lemmas. Nothing here needs to be read to know what is proved.
* `lean/Verif/Props/*.lean`: the property theorems, each with an `example` that meets its hypotheses in a case that is not trivial.
* `MANIFEST.json`: property, status, theorems.
* `seeded/LOG.jsonl`: experiments with wrong programs.

Status `proved`: the statement of the property is proved for all inputs, states and executions. Status `partial`: the statement is false of the code or only part of it is proved. Where it is false, `Cnn_claim` is the full statement, `Cnn_claim_false` refutes it with a concrete run of the model, and the theorems ending in `_partial` say what does hold, usually with the exact condition.

## Trusted base

1. **Lean 4.33.0's kernel** (and Mathlib only as far as its theorems are checked by the same kernel).
2. **Axioms**: `propext`, `Classical.choice` and `Quot.sound` only; the table at the end lists them for each theorem. No axioms of our own, no `sorry` or `admit`, no `native_decide`, no `bv_decide`, no `implemented_by`, no `unsafe`. `decide +kernel` is used for finite tables and for runs of the model in witnesses and examples; it is evaluation by the kernel.
3. **The reading of the Go code.** The model is written by hand from /repo; the code was not built or run. The citations are the tie between the two.
4. **Go as modelled.** Sequentially consistent interleavings of the accesses to shared state that each concurrent model names. Go's memory model allows more for racy plain accesses (fields `close`, `ioend`, `err`, bits of the Bloom filter, `t._mmap`); for those the positive theorems are about SC executions, while refutations hold already under SC. Any number of goroutines and calls. Go panics are values of the model.
5. **The statements** in `Props` and the specifications they use.

### Libraries and the system, as assumed

| part | how it enters |
|---|---|
| `map`, `sync.Map` | finite map with unique keys, atomic operations, no order; NaN and uncomparable keys only in C187-C189; that the operations of `sync.Map` on single keys are as good as atomic is C231, whose own assumptions are atomic pointers and a mutex |
| `container/list` | modelled pointer by pointer from Go's source |
| `google/btree` | C12, C158: list kept in order. C163, C164: v1.1.3 statement by statement (`Model/BTree.lean`): `find`, `split`, `insert`, `remove`, `growChildAndRemove`, `iterate`; without copy-on-write and free list, which a TreeMap does not use. The library source is not in /repo; the model follows its published text |
| `groupcache/lru` | modelled from its source on the list above |
| `sync.Mutex`, `sync.RWMutex` | step models; a waiting writer keeps new readers out (Lock), not modelled in Fastio |
| channels, `select`, `close`, timers | buffers with capacity and a closed flag; a timer may fire at any time |
| `sync.Pool` | bag from which anything may be taken or dropped |
| slices | windows of arrays with capacity; `append` may leave any spare capacity |
| `hash/crc32`, `hash/crc64`, `hash/fnv` | modelled bit by bit; table driven variants as in Go's source |
| `hash/maphash` | arbitrary function; in C197 the mean over all functions |
| MD5, SHA-1, SHA-256 | C203-C206: the definitions of RFC 1321 and FIPS 180-4 (`Model/Digest`), checked against published examples; elsewhere arbitrary functions |
| AES | arbitrary block function with `dec k (enc k b) = b`, a law which `C35_aes_lawful` proves of AES-256 as in FIPS 197 (`Model/AesBlock`); CBC modelled block by block |
| `crypto/rsa` | arithmetic and PKCS#1 v1.5 padding modelled; PEM, DER and the file system are parameters |
| `math/rand`, `crypto/rand` | `Intn`, `Int63n`, `Int` modelled; generator and source are parameters |
| `encoding/hex`, `encoding/binary` | modelled |
| `encoding/json` | writer, scanner, unquoting, and storing into booleans, integers, strings, pointers, slices, maps with string keys and structs, from knowledge of the published source of Go 1.23; floats, interfaces, arrays, `[]byte`, embedded structs, recursive types, own marshalling methods and the option `string` are not modelled; the folding of field names is a parameter |
| Thrift compact protocol | modelled from its source on byte lists |
| `golang/snappy`, `klauspost/compress/s2` | decoders modelled from their published source, which is not in /repo |
| zlib, gzip | the readers are modelled (`Model/Inflate`, C241-C244); the writers are arbitrary transducers with the laws of `Spec/Codec.lean`, which follow from the format (C241) |
| `os.File`, `write(2)`, `pwrite(2)` | byte list with position and append mode; failing writes in C88 and C193 only |
| `bufio.Writer` | may pass on its contents at any time |
| `mmap`, `msync`, `munmap`, write back | memory and disk as two byte lists; the kernel may write back any byte at any time |
| `time` | parsing of the one layout, calendar and table of zone changes as functions; the zone database is a parameter |
| `net/http` | bytes of requests (HTTP/1.1 only), redirects, header checks and when TLS is verified as in its source; servers, certificates and details of URLs are parameters |
| `float64` | rationals rounded to 53 digits, ties to even; no overflow, no subnormals |
| `imaging`, image codecs | sizes (C69-C110); for C174-C177 also `Clone`, `Resize` to the same size, `Fill`, flips, rotations by right angles, greyscale and inversion, pixel by pixel; codecs are arbitrary functions; for C247-C250 `Resize`, `Fill`, `CropAnchor` and `Blur` of v1.6.2 with their float64 arithmetic (from memory of the published source, no fused operations); filters with `exp` or `sin`, the values of the blur's kernel and turns by other angles stay arbitrary functions |
| `regexp`, `regexp/syntax` | parser, simplification, compilation and the simulation of the automaton modelled from knowledge of the published source of Go 1.23, which is not in the sandbox; both searches (backtracking with a table of visited places, and the simulation with queues) are modelled; one-pass programs, literal prefixes and the factoring of alternatives are left out; simple case folding is a parameter; the limits on depth (1000) and size (3.3 million instructions) of a pattern, `\p{…}`, `\Q…\E`, `[[:…:]]` and groups with names are not modelled |
| websocket `Receive`/`Send` | environment steps in `Model/Websocket`; for C256-C259 their frames on the wire, after golang.org/x/net/websocket, whose source is not in /repo |
| `os/signal` | environment steps |

## What is modelled

All packages of /repo. By file: `base58`, `util/num.go`, `util/encode.go` (CRC8, CRC32, CRC64, FNV, MD5, Md5Str, SHA1, Sha1Str, Blake2b, IsFileExist, UUID32, UUID64, RandUint, RandInt64Strict, StrToTimeFormat, MatchString), `util/compress.go`, `compress`, `util/gob.go` (all), `util/protobuf.go` (all), `thrift` (all), `hashmap` (all), `cache` (all), `keystore` (all), `uuid` (all but the choice of hash inputs), `buffer`, `pool/buffer`, `pool/gopool`, `mmap` (all), `fastio` (all), `fast` (all), `lock` (all), `image` (sizes and decisions), `httpclient`, `websocket`, `gosignal`.

Not modelled:

* pixels other than in C174-C177 and C247-C250: sharpening, colour changes, encoded image data;
* zstd (a single library call), the snappy encoder beyond 16 bytes; of protobuf (google.golang.org/protobuf v1.36.7, written from knowledge of its published source, which is not in the sandbox) maps, oneofs, declared groups, required fields, extensions, message sets, closed enums, lazy fields, messages with their own methods, nil messages within lists, the order of fields other than by number; of gob arrays, complex numbers, interfaces, types with their own methods for gob, recursive types, `float32`, fields of embedded structs reached by their own name, and the refusal of slices that take more than 2^33 bytes in memory;
* errors of the file system other than the crash of C41, the failing writes of C88 and C193 and the foreign changes of C192 and C194;
* data races below the level of the locations of C165-C170; the other models interleave statements, which is justified where C165-C170 show freedom from races;
* wrap-around of counters: 2^31 calls in flight or 2^63 bytes in fastio, 2^63 entries of a map, 2^64 additions to a Bloom filter (wrap-around is modelled where it can happen: mmap, base58, uuid, image, LimitLock, num);
* `Await` with `muxlimit ≤ 0` or with the user calling `Get` directly; `GoPool` with a negative `minlimit` and `runtime.Goexit` in functions given to it;
* NaN keys and keys that cannot be compared other than in C187-C189 and TreeMap;
* fairness of the scheduler: progress is stated as "from every reachable state there is a continuation" or "no infinite execution", never as a probability;
* primality of the factors of the embedded RSA keys (a hypothesis of C125_embedded_key).

## How each property is modelled and proved

| id | model | proof |
|---|---|---|
| C01-C03 | `EncodeForInt64` with the in-place reversal, `DecodeForInt64` on `UInt64` with wrap-around | induction on digits; positional value as specification |
| C04-C07 | shift/or loops on `BitVec`, padding loops | big-endian value; bounds by arithmetic |
| C08-C09 | the 256-entry table and the fold | table checked entry by entry in the kernel, lifted by induction; remainder in GF(2)[x] |
| C10-C11 | `sync.Map` atomic; `MapL` operations as two steps per goroutine | refinement; invariant `len + pending = card`; negative-Len witness |
| C12 | btree as ordered list | sortedness, refinement to a finite map |
| C13-C16 | pointer-level list, map of key to element, count | invariant tying the three; refinement to a recency list; iterator as cursor |
| C17-C18 | same list, `len(cache) > capacity` test | exact bound (C+1), witness |
| C19-C22, C77 | segments, hash functions per key type | refinement on hashes; collision, nil and -0.0 witnesses |
| C23-C29, C78-C79 | ring slice incl. nil-ness, binary search, CRC-64 | ring-successor specification; set-determinism; linear algebra over GF(2) |
| C30-C32 | three generations, counter, arbitrary hashes; interleaved word updates | phase invariant; lost-update witness |
| C33-C34 | groupcache/lru on the pointer-level list | refinement to a recency list |
| C35-C37, C80, C129-C130 | padding, CBC over an arbitrary block function, slices with aliasing | block induction; equality with a CBC/PKCS#7 specification; malleability |
| C38-C41, C82 | Thrift reader and writer on bytes, bean, file with crash points, buffering compressor | round trip for every map order; refinement; witnesses for lost data |
| C42, C81 | codec as transducer with laws | laws imply the round trip where the code closes first; witnesses elsewhere |
| C43-C48, C83 | bytes, hex, counter, arbitrary hash | finite byte facts; injectivity modulo 2^62 |
| C49-C52, C84 | slices, pool as bag | invariants; witnesses |
| C53-C55, C85 | locked section, byte-wise copy, msync | disjointness and data invariants over all interleavings |
| C56-C58, C86-C89, C131 | program counters for Write/WriteSync/ioWrite, queue, bufio | invariant linking file, queue and offsets; deadlock and stranded-write witnesses; exact race window |
| C59-C61, C90-C91 | program counters for the lock types | exclusion invariants; striping deadlock witness |
| C62-C64, C92-C97 | map, channel heap, goroutine machine | channel ownership invariants; witnesses for id reuse |
| C65-C68, C98-C103 | dispatcher and worker machine | task accounting; bounds; lost wakeup and Close witnesses |
| C69-C72, C104-C115 | integer decisions; rounded rationals | arithmetic; rounding error bounds |
| C73-C76, C116-C120 | life-cycle machines | invariants; order witnesses |
| C121-C125 | RSA on numbers, PKCS#1 v1.5 | Euler/CRT from Mathlib; exact accept set |
| C126-C128 | CRC registers, FNV-1a | linearity; order of x modulo the polynomial checked in the kernel |
| C132-C134 | rejection loops with arbitrary generators | counting of preimages |
| C135-C140 | handles with position, append mode and counter on one file | invariants over sequences of calls; exact error of the offset |
| C141-C144 | life of a mapping added to the calls of C53 | projection to the executions of C53; durability from Flush on |
| C145-C148 | parser of the layout, calendar and table of the zone (library `time`) as functions | exact grammar; calendar against a recursion over years and months; zones with changes further apart than offsets |
| C149-C155 | `Post3` with the redirects, header rules and checks of `net/http`; servers, certificates, URL details arbitrary | induction over the requests of a call |
| C156-C160 | any object whose methods run statement by statement under a (striped) RWMutex; `Model/LockedObj.lean` gives the statements of each container | one generic proof: each critical section is one step of the sequential object, in the order of the sections; then the sequential refinements of C14, C17 ff. |
| C161 | LinkedHashMap statement by statement with lock-free Get | simulation of a map in which a Put over the limit has two effects; enumeration of the orders of four calls for the refutation |
| C162 | LinkedHashMap and its iterators at pointer level: removed elements keep their fields | simulation: the element an iterator holds is in the ring, removed, or part of a ring that Clear left | 
| C163 | `treemap.go` over a B-tree of any degree, nodes with items and children | invariant of node sizes and heights; insert, get, remove at any height equal the operations on the list of all items (induction on the height); refinement to the list of C12 |
| C164 | the same with `<` of floating-point keys, NaN included | only comparisons of items in the tree matter (congruence), so histories without NaN are those of C163; an incomparable item is always found at the last item of the root |
| C165, C167-C170 | each method as a sequence of plain, atomic, mutex and channel actions with branches and loops (`Model/Race.lean`); executions are all interleavings; happens-before as in the Go memory model (`Spec/Race.lean`) | a static check of the code and its soundness: two accesses under one mutex are ordered by an unlock and a lock; for the refutations one interleaving in which the first access is the last action of its goroutine |
| C166 | LinkedHashMap as action sequences with values, as Get follows pointers without the mutex | written-once cells: a goroutine knows a cell only through a chain of happens-before from its writing |
| C171 | the action sequences of C165 and C166 run under `sync.RWMutex` with announced writers (`Spec/RWLock.lean`) | invariant: who holds or has announced what; a holder can always go on, so whoever is stuck waits for nobody; a weight falls with every step |
| C172 | TreeMap calls nested in the callbacks of iterations (`Model/RWLock.lean`) | one deadlocked schedule; a goroutine that reaches `Lock` with a read lock of its own stays there (invariant); readers only: nobody announces |
| C173 | `Map` and `MapL` under concurrent use: one atomic `sync.Map` operation per call, the counter added to in a second step (`Model/MapConc.lean`) | simulation by an object under a mutex, whose linearizability is that of C156; one history with `Len` = -1 |
| C174 | everything `Encode` does to the picture (`Model/ImageTr.lean`); the library's flips, quarter turns, negative and grey pixel by pixel, resampling, blurring and other angles as parameters | each step shows the picture of `Spec/Picture.lean`; error analysis of the float64 luminance and of `angle - floor(angle/360)*360`; one angle above 2⁵³ |
| C175 | same | `Resize` and `Fill` copy when the size does not change |
| C176 | same | sizes through all steps, with C70 |
| C177 | same | the other steps do nothing; C69, C107, C108 |
| C178 | `Has` and the machines of C62 and C64 | invariant: an entry belongs to a running `Wait` that will remove it |
| C179 | `resizeGIF` pixel by pixel, blur, scaling and dithering arbitrary (dithering picks palette colours); `Spec/Anim`: what a viewer sees | refuted with two animations; what is kept, directly |
| C180 | accesses of `WriteSync`, `Write`, `ioWrite`, `Close`, with the values of `cc`; fields of queued items left out | races: traces; `offset`: an automaton per goroutine, `cc` counts the calls under way, so two calls are never in the fast way at once |
| C181 | accesses of `Append`, `WriteAt`, with the values of `offset` | an automaton per goroutine; the regions reserved are apart |
| C182 | any number of `storeAdmin` values on one file, each call cut into its file operations; compressor and thrift encoding as in C38-C40 | refuted with two stores; what is in the file, as an invariant: the whole of what the last writer had |
| C183 | the records as cells of a heap, `Get` returns the address; callers may write to any address they were given | refuted; invariant: different users have different cells |
| C184 | accesses of `NewUUID` with the values of `seq`; `pid`, `rid`, `pidaddr` are never written | race: trace from the state after 2^64-3-start calls; before: the counter is below the maximum |
| C185 | `mk`, hash arbitrary | refuted; the pairs that can follow each other, exactly; window: invariant of C46 |
| C186 | `UUID.Base58` | from C01, C02 |
| C187 | the five containers with keys as an `any` may hold them (`Model/OddKeys`); `container/list` as lists of elements with identities | refuted; the panicking calls case by case; the lost limit by an invariant for every limit |
| C188 | the same | refuted for every capacity and number of entries; otherwise an invariant: map and list hold the same keys |
| C189 | `Range` over the entries in any order | refuted; induction over the entries |
| C190 | `praseMode` and the sides of modes 2, 3, 4 (`Model/Image`), float64 with correct rounding | refuted; `linarith` over the rounded quotients |
| C191 | the same for modes 1 and 5 | refuted; case by case, all sizes |
| C192 | `ReadFile` and a file system that others change, byte by byte (`Model/ReadFile`); `mmap.Open`, page faults trusted as described | refuted; otherwise invariants with the history of the execution |
| C193 | `_keyStore.Write` with a failing `Truncate` and a write that stops anywhere (`Model/KeyStoreDisk`) | refuted with a full disk; memory by simulation of C39, repair by the round trip of C38 |
| C194 | names, open files and other programs at the key file (`Model/KeyStoreDisk`) | refuted by a rename; invariants about the number of the open file |
| C195 | both Snappy decoders, golang/snappy and the s2 one with repeats, and the encoder up to 16 bytes, after the libraries' published source (`Model/Snappy`); format in `Spec/Snappy` | refuted (no checksum; repeats are accepted by one package only); round trip for every way to write a block, by induction over elements, and inversion |
| C196 | `TDecode` with the struct it is given, also after errors (`Model/KeyBeanInto`) | refuted; simulation of the reader of C38 by overlay |
| C197 | the filter of C30 and C31 with the sizes of the constructor over the reals, averaged over all tables of positions (`Model/BloomRate`) | refuted; counting functions, Jensen's inequality for the lower bound |
| C198 | `JsonEncode`, `JsonDecode` with encoding/json's writer, scanner and unquoting for bool, int64, string, slices and maps, after the library's published source (`Model/Json`); UTF-8 and values in `Spec/Json` | refuted (bytes that are no UTF-8); exact result by induction over types and strings |
| C199 | the same, against the grammar of RFC 8259 (`Spec/JsonDoc`) | induction over types: every document is read, and inversion of the scanner: nothing else is |
| C200 | `modeSize` of C70 applied again; pictures as in C175 | refuted by two examples; case analysis per mode, one side being met exactly after the first step |
| C201 | `encodeOpts` (`Model/ImageTr`) | refuted: independence by definition; the other fields by evaluation of examples |
| C202 | `resizeFile` over a codec that keeps pictures | C175 and the size of the mode |
| C203 | `md5Sum`, `sha1Sum`, `md5Str`, `sha1Str` (`Model/Digest`) | induction over the bytes of the digest, cases by evaluation over all bytes |
| C204 | the same | a collision of one block by evaluation; blocks taken in first do not see what follows |
| C205 | the same | the state is read back from the digest |
| C206 | `decrypterCbc` of C36; AES-256 (`Model/AesBlock`) | C36; the last byte is below 256; `InvCipher` undoes `Cipher` step by step |
| C207 | `encode`, `decode` (`Model/Gob`): values byte by byte, definitions of types as messages with any contents | induction over types: what is read of what was written; refuted by an empty slice |
| C208 | the same | induction over types; a cut message is shorter than its length says |
| C209 | `step` of the credential store (`Model/KeyStore`) with MD5 of `Model/Digest` | hexadecimal digits determine the digest; refuted by the collision of C204 |
| C210 | `isFileExist` (`Model/FileExist`): `os.Stat` as a walk along the path through a tree of directories, links and files | induction along the path and over the number of links; refuted by a directory that may not be searched |
| C211 | `uuid32` (`Model/Uuid`), any hash function | pigeonhole; runs of any number of calls are built |
| C212 | `wire` (`Model/PostWire`): `Request.write` of the library; a server is the reader of `Spec/HttpReader` | lines and fields are read back one by one; canonical names are equal if they differ in case only |
| C213 | the same | membership in the list of fields; refuted by an entry `Host` |
| C214 | the machine of C60 and C61 (`Model/Lock`); calls belong to goroutines by any function | induction on the number of the mutex, downwards, and whether a writer is announced; refuted by keys 0 and muxNum |
| C215 | `marshal`, `unmarshal` (`Model/Proto`): the wire format and the fast path of the library, for a schema given as a table of fields; messages by levels of nesting | the bytes are a list of records, each read back as written; induction on the levels; what is read fits the schema; bad strings and missing levels give an error at the record where they are |
| C216 | the same; `merge` of `Spec/Proto` | records after records; the reader started on any message |
| C217 | the same with two schemas; `seen` of `Spec/Proto` | records of unknown fields are kept byte by byte and read again in another order; order between different fields does not matter |
| C218 | `Blake2b` over the portable implementation of `x/crypto/blake2b` (`Write`, `finalize`, `hashBlocksGeneric`) | equality with RFC 7693 (`Spec/Blake2b`): rounds on sixteen variables against the vector of the standard, blocks and counters by induction; prefix-freeness from lengths and the mark of the last block |
| C219 | the methods of `storeAdmin` in steps (map, truncate, write) under the mutex | the invariant of `Locked` (C156); states of the file in the middle of a method |
| C220 | the same with two schemas that differ in varint types; `conv` of `Spec/ProtoTypes` | both are compared with the schema in which all these fields are `uint64`: writing gives the same bytes, reading is reading as `uint64` followed by the conversion; conversions bit by bit against arithmetic |
| C221-C225 | any generated Thrift struct: schemas, values typed by them, the generated `Write`/`Read` over the compact protocol, checked sets, `Skip`; `Spec/ThriftStruct` | values as trees of the wire format; writing gives these bytes or, on an error, a proper prefix; reading by another version fails or gives the common fields, by induction over the change between the versions and over types; successful reads are unaffected by what follows, so prefixes are refused |
| C226 | programs that lock, unlock, read and write, over the keys of `Model/Lock`; `LimitLock` as a counter of places (`Model/RaceLock`) | the discipline of C165 with the mutex of the key of each datum; for limit 1 an invariant: the place is held by one goroutine, and passing it on orders |
| C227 | the methods of `Await` and `FastAwait` as code over `sync.Map` entries, channels and the words of the filter (`Model/RaceAwait`) | the discipline of C165; races by concrete interleavings for any ids |
| C228-C230 | calls that write a record and hand a pointer to it over, and calls that read what they are given (`Model/RaceHand`); `Delivered` of `Spec/RaceHand` | pointers are known only to those who made or received them; a known record was written before; the value of a record written once does not change |
| C231-C232 | `Load`, `Swap`, `LoadAndDelete`, `Range`, `missLocked`, `dirtyLocked` of `sync.Map` step by step, under the methods of `Map` (`Model/SyncMap`); `Range` as `Get`s in `Spec/SyncMap` | a trace with the moments of effect; an invariant of the two maps and the entries, and for each place in the code what it may rely on; reads are put into the order at the moment at which they saw the value (`Proof/LinStamp`); a torn Range as witness |
| C233-C236 | parser with its stack, `Simplify`, compiler and the simulation with queues of threads (`Model/Regexp`); the grammar and what fits in `Spec/Regexp` | the parser on the grammar gives a tree with the same meaning; simplification keeps the meaning; a program contains the program of each part, and runs between two places are the fits; the queues hold the threads reachable; each place of the program enters a queue once per character |
| C237-C240 | `JsonEncode`, `JsonDecode` of structs with tags, pointers and integers of every size: `structEncoder`, `isEmptyValue`, `indirect`, `object`, `array`, `literalStore` after the library's published source (`Model/JsonStruct`); types, values, what comes back, views and documents in `Spec/JsonStruct` | what is written is a document of the grammar; every document is read as what it says; induction over types, views and documents |
| C241-C244 | the readers of `compress/flate`, `compress/zlib` and `compress/gzip` under `UnZlib` and `UnGzip`, after the published source of go1.23 (`Model/Inflate`); the formats as relations in `Spec/Deflate` | canonical codes are free of prefixes and `huffSym` finds the code; each part of the reader inverts the relation of its part of the format; results for less input are beginnings of results for more; 129 bytes for each bit, attained by copies of 258 bytes with codes of one bit |
| C245-C246 | `Encode` and `Decode` with the types of both sides: descriptions of types written and read byte by byte, resolution of type numbers, `compatibleType`, `compileDec`, `decIgnoreOpFor`, `decAlloc` after the published source of `encoding/gob` (`Model/GobType`); `Came`, `Fits`, `Strangers`, `Overflows`, `Wider` over types and values in `Spec/GobType` | descriptions are read as written and the numbers lead back to the type (invariant over what has been sent); a value of one type read as another is what `Came` says, by induction over types |
| C247-C250 | `precomputeWeights`, `resizeHorizontal`, `resizeVertical`, `resizeNearest`, `Fill`, `CropAnchor`, `Blur` of imaging v1.6.2 with float64 arithmetic (`Model/Resample`) under `Encode`; colours, shades and opacity of a picture in `Spec/Resample` | each rounding keeps a value within a factor of 1 - 2^-53, so sums of weights times shades divided by sums of weights stay within half a shade of the exact average; the pixel nearest to a place always has a positive weight; for Hermite and BSpline the weights made negative by rounding are bounded (`Proof/ResampleMild`) and sums are compared with an absolute error; what holds for all pixels of a picture is carried through crops, passes, turns and blur |
| C251-C252 | `LimitLock.Lock`, `Unlock`, `Cc` with `Unlock` as a call of its own, by goroutines with and without the lock; unbuffered channels (`Model/LimitAny`) | invariant: the channel holds the Locks that got in less the Unlocks that went through; each lock is given back by one call of its own |
| C253 | number of frames of `_funcn` on the dispatcher's stack, on top of the GoPool step machine | invariant (frames + pending call ≤ calls of Go past their increment); refuted by a run of n rounds (induction) and by a run after Close |
| C254, C255 | several sessions on one file, several mappings at once with their own offsets and shared bytes, on top of the steps of `Model/Mmap` (`Model/MmapAgain`) | induction over sessions; simulation of all mappings by one whose calls are WriteAts; refuted by a full file and by two mappings from 0 |
| C256-C259 | the bytes that `sendws` and `read` of `websocket/wshandle.go` exchange with the server through `Message.Send` and `Message.Receive` of golang.org/x/net/websocket (frames, length fields, masking, pings, close, limit of 32 MB, ends of the connection); RFC 6455 as a separate spec (`Spec/WsWire`) | parser after writer, by cases on the length fields; induction over frames; the cut stream is frames and a part of the next; refuted by a message in two fragments and by a cut message |
| C260, C261 | step machine of `Add` and `Contains` of `cache/bloom.go` with the mutex, the three arrays on a heap and single loads and stores of words (`Model/BloomConc`) | invariants over all schedules (mutex, arrays; measure for the steps); generations numbered through, invariant that relates each call to the newest one; refuted by a Contains held up over two generations |
| C262 | `StringToSlice` (fast/fast.go) under programs that convert, cut, join, slice, append and assign; strings and slices are windows of arrays, literals cannot be written (`Model/Fast`); which programs are careful in `Spec/Fast`, told from the text of the program | invariant: a slice that may be written shares no array with a string and is no literal; a slice as `StringToSlice` gave it has no spare capacity |
| C263 | several processes that make UUIDs: any start, any interleaving in each (`Model/Uuid`), the hash values of a process as a function of the sequence number (`Model/UuidMany`); that `maphash` behaves like a function chosen at random and the start like a random choice is the reading of the count, not proved | the value of a UUID as a number; counting functions with a given value at one place; union over pairs of calls, each of which fixes the start |
| C264 | `float32` keys of LimitHashMap: the conversion to float64 on the bits, subnormal numbers and NaN included (`Model/Float32Key`); what bits stand for in `Spec/Float32` | the fields of the result; the number is kept, and bits with the same number are the same |
| C265 | functions that defer `Recover` (util/encode.go; the same function in lock, fastio, cache, websocket): statements, calls, deferred closures, panics (`Model/Recover`); Go's rules for `defer` and `recover` are the model; `Goexit` is not | induction over the code before the `defer` |
| C266 | `UUID.Bytes` on arrays and slices: `NewUUID`, `Parse`, `Bytes`, `s[i:j]`, `s[i] = v`, `append` with room (`Model/UuidBytes`); the rules of slices are the model | slices never go away and lie in their arrays (invariant); induction over the program; text by C43 |
| C267 | `Concat` (util/encode.go); the `strings.Builder` is the bytes written (`Model/Concat`) | the result is the flattened list; induction over the lists |
| C268 | the numbers in `BloomFilter.String` (`Model/BloomString`) for the filter of `Model/Bloom`; `Sprintf` is not modelled | one array is always missing, all have the same size (invariant); the previous array is there once E items were added (with the invariant of C31) |

Not expressible: none; what is left out is listed under "Not modelled".

## Properties that are false of the code or only partly proved

* C15: The claim is false: LoadOrStore replaces the stored value (witness and negation proved). Proved part: it returns the existing value and whether it was present.
* C17: False as stated: C+1 entries are kept (negation proved, bound max(C+1,1) proved and shown tight for every C).
* C19: False if capacity < segments (64 entries with capacity 1); proved when capacity >= segments, and the general bound segs*max(cap/segs,1).
* C21: False for strings (explicit FNV-1a collision); proved for injective hashes; in general a returned value was put under a key with the same hash.
* C22: False: Get hides nil values and a second Put panics (witness, and panic proved for every such state); proved for non-nil values.
* C23: False as stated (two witnesses: deleting the last node, and deleting a node that had taken over a member's points; both panic). Proved: exact panic condition, answers are members, totality without collisions.
* C25: Fails only for the empty final node set (new ring answers absent, emptied ring panics). Idempotence of Add proved as equality of states.
* C27: First half proved in full. The restore half is false when the new node takes over a member's point (witness with the real CRC64); proved when its points are free.
* C30: Proved for every filter with a non-empty bit array and any hash functions. Refuted in the corner where the constructor computes 0 bits (e.g. NewBloomFilter(1, 0.9)): then Contains is always false.
* C32: Refuted as stated: lost update of the unsynchronised word read-modify-write. Proved when different goroutines touch different words.
* C36: Refuted (empty input panics). Proved: the exact panic condition and the exact result otherwise; the caller's memory is untouched.
* C37: Refuted: a slice with spare capacity for the padding is encrypted in place. Proved: no change without room, and the exact effect with room.
* C39: Refuted: a file holding the byte 0 decodes to a bean with nil maps and Put panics. Proved for every file that loads without nil maps (in particular an empty file, an undecodable file); passwords matter only through their digest.
* C40: Refuted for every compressor that keeps data back: after any history with a write, a restart finds all maps empty (util.Zlib returns the stream before Close). The reader restores complete streams.
* C41: Refuted: after Truncate the file is empty, for every old and new contents. A crash leaves the old file or a prefix of the new.
* C42: Refuted: util.Zlib takes the bytes before Close, so util.UnZlib returns a proper prefix without error; compress.ZlibLevel only flushes, so compress.UnZlib rejects its output. The other pairs are proved for every lawful codec; snappy/zstd are single library calls and not modelled.
* C44: As stated it is false: the four separator bytes are not looked at. Proved: exactly the strings with five groups of hex digits parse; with '-' at the four places, exactly the UUID texts.
* C46: As stated it is false: Variant tests three bits. Proved: exactly when each value is returned; 1 for new UUIDs whose sequence number is below 2^61.
* C48: As stated it is false: Equals compares the pointers. Proved: true exactly for the same object.
* C49: As stated it is false: WriteInt32 reports 8 bytes for 4. Proved over slices with capacity and backing arrays: contents always right, all other results right, contents are what was written since the last Reset.
* C50: As stated it is false: the read that reaches the end leaves the data, and io.EOF is never reported. Proved: exactly what a Read does, the drained prefix, and that a reader loop never ends.
* C51: As stated it is false: a second Free hands the buffer to two users. Proved: exclusive use if users give back only what they have; programs using Get and Put(&v) without copies always do; buffers handed out are empty in every run.
* C52: As stated it is false: the comparison picks class 0 for every length. Proved: the class for every length and pool size, with int overflow.
* C54: Append is proved in full. For WriteAt the claim is false as stated: an offset near the largest int overflows the check and panics, a negative offset panics and may move the append offset. C54_panic_iff gives the panics exactly; C54_writeAt_partial covers the rest.
* C55: False as stated for an empty write at the end of a file of whole pages (index panic); proved otherwise, with the panics characterised. The Windows variant is exact but panics on every empty write; the Solaris variant flushes nothing of the mapping.
* C58: False as stated (C58_claim_false): a Write made between the moment the writing call finds the queue empty and the moment it sets ioend returns at once and its data stays in the queue. Proved: the exact condition (queue empty), and that the next WriteSync made after the Write returned brings it to the file.
* C63: False as stated: a returning Wait removes the channel of the next Wait on the same id (C63_claim_false). Proved when the Waits for the id do not overlap.
* C66: The bound maxlimit is false (C66_claim_false: three functions run with limits 1 and 2). Proved: at most maxlimit+minlimit, and at most minlimit if maxlimit is not larger, without Close and TurnOff.
* C67: False: a Go whose TryLock comes between the dispatcher's last look and its Unlock leaves its function in the queue; minlimit 0 deadlocks. Proved for all runs without such a TryLock, Close and TurnOff, with positive limits.
* C68: False: a worker may leave its select with a function in its channel; a dispatcher waiting for a worker panics on the closed pool and drops its function and the queue. Proved if the write of close comes at a calm moment.
* C69: The claim is false: negative widths and overflowing sums are accepted, and images whose bounds do not start at 0 are cut in the wrong place (witnesses). Proved for images that start at 0 and numbers without overflow.
* C70: False for modes 1 and 5 with one side 0 (witness); proved for every other mode with every request, and for modes 1 and 5 with both sides given; sides up to 2^31, float64 rounding modelled.
* C74: False as claimed: goroutines of OnMessage may run after OnClose (C74_claim_false). All the rest is proved.
* C77: False for 0.0 and -0.0; holds for all other equal keys.
* C78: False: with the ECMA CRC64, replica 0 of node 1 and replica 1 of node 8025316695516917426 coincide. What holds is C29 and C79.
* C81: Refuted for util.UnZlib and util.UnGzip (errors dropped). Proved exactly for package compress.
* C82: Refuted: a missing key compares like an empty string or nil user; Equals is not even symmetric. Exact if the receiver has no such values.
* C83: As stated it is false: Int64 consists of the hash only, with four bits overwritten. Proved: exactly when two calls have equal Int64, and a collision among any more than 2^60 UUIDs.
* C84: As stated it is false: Reset and a write overwrite it. Proved for histories without Reset.
* C87: False as stated for every queue capacity (C87_deadlock): Writes made while one call is about to set ioend are all acknowledged and fill the queue; the next one blocks in the send with cc > 0, so every later call takes the slow path and blocks as well: no call ever returns again and the file never changes.
* C88: False as stated (C88_claim_false): a waiting WriteSync returns nil though Flush failed. After an error in the slow path the lock stays held for ever (C88_dead) and later Writes are acknowledged and lost (C88_lost). Proved: a call of the fast path reports its own failed write (C88_fast_error), errors come only from writes the call did itself (C88_error_own), and without error its data is in the file (C88_fast_partial); if writes fail in the fast path only, the data is at the returned offset, a beginning of it after an error (C88_offset_partial); calls that do not overlap are always in that case (C88_sequential). Without errors the claim is C56.
* C89: False for Write (C89_claim_false); proved for WriteSync.
* C90: False as stated for every number of mutexes and every hash function: locks are striped, and a goroutine that holds key 0 and locks key muxNum waits for itself. Proved: only keys equal modulo the number of mutexes interfere.
* C91: False as stated: Cc can return limit+1 and -1. Proved: the difference of the counters at one moment is the number of holders plus the Unlock calls in flight.
* C92: False as stated: the timeout of one of two waiters on an id closes the shared channel and the other returns zero, nil (C92_claim_false). Proved when the Waits for the id do not overlap.
* C93: False as stated in both directions (C93_claim_false, C93_timeout, C93_error). Proved for non-overlapping Waits and a single put: a waiter that returns without error returns that value.
* C94: False as stated: with timeout <= 0 the context is ignored, in Await and FastAwait. Proved for timeout > 0.
* C96: False as stated: a second Wait replaces the channel of the first (C96_claim_false); false also for non-overlapping Waits, because a late CloseAndPut removes the channel of the next Wait (C96_serial_false). Proved when that call is the only CloseAndPut or Close for the id.
* C97: False as stated: an id waited for before is in the filter, and CloseAndPut gives up at once (C97_claim_false). Proved for ids that are not waited for and not in the filter.
* C98: False: FuncLimit 0, minlimit 0, or the race of C67. Proved under the conditions of C67.
* C99: False after TurnOff(true), and for a panic that races with Close. Proved without Close and TurnOff.
* C100: False: ten seconds after Close the queue is closed under a Go that is about to send. Proved until then.
* C101: It can be -1. Proved: in a quiescent state of a pool without Close and TurnOff it is the number of accepted functions not begun.
* C103: False: the dispatcher can call itself for ever. Proved if the write of close comes at a calm moment.
* C104: False when the box is more elongated the other way (400x100 into 200x90 gives 360x90); proved when the box is at least as elongated as the image or one side is within its bound.
* C106: False: half of 234x54 is 116x27; proved to be at most one pixel short.
* C107: ScaleLower proved; ScaleUpper may miss one row (7x3 over 35x15 gives 35x14), proved up to that.
* C108: False for lines (10000x1 with limit 100 gives 1000x1); proved for all results with both sides above 2, sides up to 2^16.
* C110: False for thin GIFs (canvas height 0, frame height 1); proved when the new canvas is not empty.
* C111: False: unknown formats are ignored silently; all cases characterised.
* C112: False: no AVIF file is recognised, every WAVE file is called webp; WebP files are recognised.
* C113: False above 10 (100 gives the lowest quality); proved from 1 to 10.
* C115: False: 10x1000 for height 50 stays 10x1000, 234x54 for width 117 gives 116; proved when the other side keeps a pixel, up to one pixel for widths.
* C116: False as claimed: messages may be delivered out of order (C116_claim_false). Exactly-once is proved.
* C117: False as claimed: OnError may be given nil when Close is called (C117_claim_false).
* C122: False: bad PEM, parse errors and other key types give nil, nil (C122_claim_false). Proved: exactly these.
* C135: False for every handle made by Open: os.File refuses WriteAt in append mode (C135_open, C135_claim_false). Proved for handles made by New without O_APPEND.
* C136: False: a handle made by Open never reads anything back that it or anybody wrote before (C136_eof, C136_claim_false). Proved exactly what is delivered: the bytes others appended since the handle was made or last wrote.
* C137: False with two writing handles (C137_claim_false); the error is exactly the bytes given to other handles since opening (C137_exact_partial). Proved when no other handle writes.
* C140: False: WriteAt past the end and then WriteSync overwrites data, and with a Read in between returns a wrong offset (C140_claim_false, C140_wrong_offset). Proved as long as WriteAt stays inside the file.
* C141: False: the file is mapped before the start offset is checked, so an offset at or past the end leaks the mapping (C141_claim_false); proved to be exactly these offsets.
* C142: False: Append after Close panics, Close during the copy of an Append kills the process (C142_panic, C142_crash). Proved: nothing of the kind before Unmap; no kill if no call is copying at Unmap; a call not past its slice expression at Unmap never succeeds later.
* C144: False: mmapSyncToDisk does nothing on Solaris (C144_claim_false, C144_solaris_partial). On Unix the statement is C85.
* C145: The claim is false: several spaces, hours of one digit and fractions are taken. Proved instead: the exact set of strings taken, that each has one meaning, that every date of the layout is taken.
* C146: The claim is false without a time zone database (the error of LoadLocation is dropped). Proved instead: exactly when it panics and when it returns an error.
* C147: The claim is false for times left out at the beginning of summer time. Proved for all times that clocks showed; the others are taken as an hour later; after 1991 the moment is exactly eight hours before UTC.
* C148: The claim is false around the beginning of summer time. Proved from 1991-09-15 01:00:00 on, and for all zones of one offset.
* C149: The claim is false: for URLs that begin with https: (lower case) certificates are not checked. Proved: with such URLs certificates have no influence at all; with any others (HTTPS:, redirects from http:) every TLS server is checked.
* C150: The claim is false: the status is not looked at. Proved: the result is the whole body of the last response, never a broken one.
* C151: The claim is false for names that differ in case only (the order of the map decides). Proved for all maps whose names differ in more, in every order.
* C153: The claim is false after 301, 302, 303 (a GET without data follows). Proved: the first request and every POST has exactly the data; all requests are POSTs unless a server answered with one of these.
* C154: The claim is false: no timeout. Proved: at most ten requests, and a call that does not return waits for a reply or the body of one.
* C160: Linearizable for Put, Get, Del, Contains and for what Clear and Len do to each segment. Missing, and false in the code: Len and Clear of several segments go one segment at a time; Len can return a number of entries the map never had.
* C161: False in the code as soon as Get is used: it takes no mutex, so it sees a Put over the limit between its two effects; with limit 1 one goroutine finds the new and then the old entry. Proved: every history is explained when such a Put has two effects with only Gets in between; without Get it is linearizable; at rest the bound holds. The data race on the pointer t.m between Get and Clear is taken as an atomic word. Iterators are left out.
* C162: The claim that Next returns only entries of the map is refuted; exact semantics of all histories (C162_iterators_exact) and completeness of calm iterations are proved.
* C164: The claim is false for NaN keys (C164_claim_false; C164_nan_get, C164_nan_put and C164_nan_del say what happens in every non-empty map). C164_partial is the positive part: histories without NaN keys.
* C166: The claim is false (Get against Clear); the only race, and none without Clear or without Get.
* C167: The claim is false for Len and Cc; without them there is no race.
* C168: The claim is false for Add/Add, Add/Contains and the change of segment; the counter is safe.
* C169: The claim is false for the field err; the connection is safe.
* C170: The claim is false for tnum (even with Go alone) and close; the other fields are safe.
* C172: The claim is refuted: writing in a callback always blocks, reading may; proved for callbacks that read while nobody writes.
* C173: Refuted for MapL with Len (it can answer -1); proved for Map and for MapL without Len. The operations of sync.Map are atomic here, steps of its algorithm in C231; Range is in C232.
* C174: Refuted for Rotate above 2^53; proved for |Rotate| <= 9e15, with the library's pixel operations modelled; the grey function is shown to be a correct rounding of the luminance.
* C179: False as stated, twice. The screen of the result is the union of the frames, not the screen of the source (C179_screen). Each frame becomes a full frame in its own palette, so a frame whose palette has no transparent colour hides all earlier frames (C179_hides, C179_redBlue). Proved: number of frames, delays, disposal, loops and palettes are kept; the size is kept when a frame covers the screen. With a library that changes nothing that needs no change, every frame shows its own pixels where it was.
* C180: False: wc is read plainly under the mutex and counted atomically outside it (C180_wc), ioend is read outside the mutex and written under it (C180_ioend), and two Closes write isClose (C180_close). Proved: there is no race on the offset, and none on the counter of calls.
* C182: Refuted: two stores that loaded before either wrote overwrite each other. Proved: the file holds exactly what the last writer had; one store alone loses nothing; a store's answers depend on its own calls only; before Load every method panics.
* C183: Refuted: Get returns the store's own record, so writing to it changes the store. Proved: the store itself never changes a record it handed out; the claim holds if nobody writes to the record of that user while it is in the store; and every such write goes through to Get and to the file.
* C184: Refuted: the call that takes the last of the 2^64 sequence numbers increments scale without synchronisation. Proved: no race in the first 2^63 calls; never one on the sequence number.
* C185: Refuted: the second half is a counter. Proved: u then v can come exactly if both are version 4 and the 62 free bits of the second half of v are those of u plus one; in an execution of k calls all second halves are within k of each other.
* C187: Refuted for LinkedHashMap: Put and LoadOrStore push the entry onto the list before the map panics; a later Put of an ordinary key panics too and the limit is exceeded for good. Proved for Map, MapL, LruCache, for LimitMap but RemoveMulti (which has then removed the keys before), and for the other methods of LinkedHashMap; the effects of the exceptions exactly.
* C188: Refuted: entries under NaN are never found, so never removed; n Puts of NaN leave n entries in every LimitMap, for ever. Proved if NaN is never put.
* C189: Refuted: the assertion k.(K) panics on a nil key. Proved without nil keys; exactly what happens with one.
* C190: The claim is false: 234 x 54 over 117 x 27 becomes 116 x 27. Proved instead for all sizes and bounds: one side of the box is met exactly and the other covered, and only if box and image have exactly the same ratio one column may be missing; images not larger than the box on one side stay as they are; modes 2 and 4 are mode 3 with turned bounds; one bound stands for both.
* C191: The claim is false: an upright image 100 x 200 for which 300 x 150 is asked keeps its height. Proved instead: the exact size in every other case, and the original size in that one; mode 5 without exception; mode 1 with one bound gives a square limited by that side only.
* C192: The claim is false: a file overwritten in place during the call gives a mixture, and one that is shortened ends the process; files whose size is given as 0 are read as empty. Proved instead: if files are only replaced as a whole the result is a state of the file; if no file is made shorter every byte was at its place in the file at some moment and the process is never ended; a call left alone returns the contents.
* C193: False as stated (C193_claim_false): Write truncates first, so a failing write of one user loses all (C193_all_lost, C193_short), and the store goes on as if nothing had happened (C193_memory). Proved: one Put whose write goes well repairs the file, whatever failed before (C193_repair_partial, with a Faithful compressor; C40 is what happens with zlib). Missing: the time in between.
* C194: False as stated (C194_claim_false): the running process writes to its open file, not to the one under the name, so after a rename (C194_replaced) or removal (C194_removed) nothing it does reaches the key file; an unreadable file gives an empty store without error (C194_damaged_kept) and the first Put overwrites it (C194_damaged_lost). Proved: a process started since the last foreign change saves what it holds (C194_restart_partial).
* C195: As stated false: Snappy has no checksum, so changed data bytes go unnoticed, and compress.UnSnappy accepts s2 repeats that util.SnappyDecode rejects. Proved: round trip of every block in both packages, inversion, truncation, agreement in one direction, size bounds and their absence.
* C196: As stated false: maps that were nil when encoded leave the old ones in place, and an error leaves the bean partly overwritten. Proved: same success as decoding into a new bean, exact overlay, and the round trip where each map is non-nil in the encoded bean or nil in the old one.
* C197: As stated false: a filter for 1000 items and one in 128 reaches more than fourteen times that rate, because two generations are looked at. Proved: general upper and lower bounds, and 4p while at most seven tenths of the expected items are in.
* C198: Refuted in full: bytes that are no UTF-8 are replaced by U+FFFD without an error (keys may collide), and more than 10000 levels are written but not read. Proved for texts up to 10000 levels, with the exact result for all strings.
* C200: False as stated: in mode 0 a picture may miss the box the first time (400 x 100 for 200 x 90 becomes 360 x 90, then 200 x 50), in mode 5 a box higher than wide turns the picture, which exchanges the sides the next time. Proved: modes 1 to 4 always, 0 and 5 under the stated conditions (for mode 0 exactly those); in every mode the third time changes nothing.
* C201: False as stated: Encode never reads Quality and Colors. All other fields make a difference.
* C207: At full strength the claim is false: an empty slice comes back nil. Proved is what comes back of every value, and that exactly the plain values come back unchanged.
* C209: The passwords with the same MD5 fit. Refuted: known colliding blocks give two passwords that fit each other's record.
* C210: The exact meaning of the answer is proved. Refuted by a file in a directory that may not be searched; links that lead nowhere are not told of either.
* C213: Which entries arrive and where all fields come from is proved. Refuted by an entry Host.
* C214: Refuted for the order of keys, for every number of mutexes (a goroutine waits for itself); proved for the order of mutexes, with any number of goroutines; a second RLock behind a waiting Lock deadlocks.
* C225: refuted in full (65 levels); proved up to 64 levels
* C227: Refuted for FastAwait: words of the Bloom filter are read and written without synchronisation. Proved for Await and for FastAwait outside the filter's words.
* C244: compress.UnZlib notices every cut, compress.UnGzip all but those between members, the functions of util none after the header; the claim as stated is refuted
* C246: that adding, removing and moving fields never makes Decode fail is false (no field left: C246_claim_false); with some field left it holds (C246_wider_partial), and the errors are exactly known (C246_errors)
* C248: the claim for all filters is false (C248_claim_false); proved for filters that average: Box, Linear, Hermite and BSpline (C248_four_partial; the kernels of the last two become negative by rounding, which is accounted for) and any filter given as a function nowhere negative and positive up to 1/2 (Gaussian)
* C251: false as stated (witness: Unlock after a timeout); proved: at most one more for each surplus Unlock, and the limit without them
* C252: that the Unlock of a holder never waits is false after a surplus Unlock; proved without them; the rest proved in full
* C253: The claim is refuted: n+2 calls of Go leave n+2 frames in a pool that is never closed (C253_open_pool), and after Close three calls give any number of frames (C253_closed_pool). Proved: at most as many frames as calls of Go until the queue is closed. Sizes of frames and of the stack are not modelled.
* C254: False for full files (C254_claim_false): NewMMAP refuses a start offset equal to the size. Everything else is proved for any number of sessions. Close is taken to succeed, the size of the file not to change.
* C255: False as stated (C255_claim_false): two mappings from the same start hand out the same region. Proved: Appends through one mapping never overlap, a call whose region is alone finds its data, mappings with parts of their own do not disturb each other.
* C257: False for fragmented messages and for messages longer than 32 MB (C257_claim_false, C257_too_large). The library golang.org/x/net/websocket is not in /repo; its framing is modelled from its published source.
* C258: False if the connection is closed in an orderly way within a message (C258_claim_false). The library golang.org/x/net/websocket is not in /repo; its framing is modelled from its published source.
* C261: False if a Contains is held up over two generations (C261_claim_false), and if Adds run at the same time (C32).
* C262: the claim for all programs is false (C262_claim_false, C262_append_false); proved for careful programs (C262_careful_partial), with the exact effect of writes (C262_write, C262_literal)
* C263: the claim is false if hash values may agree (C263_claim_false); exact condition (C263_same), disjoint ranges of sequence numbers (C263_apart_partial), the bound for the chance over all hash functions and any set of starts (C263_chance_partial, C263_one); that maphash and math/rand behave like random choices is not proved
* C264: false for the zeros (C264_claim_false) and for NaN (C264_nan); all other keys: C264_found_partial; the exact condition in C264_same, the number kept in C264_number, histories without NaN in C264_refines
* C265: false if calls were deferred before (C265_claim_false), in a closure or without defer (C265_not_direct); holds as the first statement (C265_no_panic, C265_error, C265_silent), without such calls (C265_plain_partial), and in general up to an assignment to err (C265_rest)
* C266: The claim is refuted (Bytes lends the array of the UUID); what holds: only slices of the UUID's own array change it, full append copies, effect of one write, the length. Slices with three indices and goroutines are not modelled.
* C267: Different parts can give the same string (refuted); it holds for parts of the same lengths and for parts with an end mark.
* C268: The bytes are an upper bound always and exact once expectedItems items were added; before that they are not (refuted). Calls one after the other; for many goroutines see C260.

## Axioms of each theorem

As printed by `#print axioms` (prefix `Gofer.Props.` left out).

**none** (15): Base58.C03_base58_overflow_wraps, Compress.C42_zlibLevel_invalid, Mmap.C53_negative_start, Mmap.C54_negative_moves_offset, Mmap.C55_claim_false, MmapLife.C141_claim_false, OddKeys.C189_claim_false, Recover.C265_claim_false, Recover.C265_error, Recover.C265_last, Recover.C265_no_panic, Recover.C265_not_direct, Recover.C265_plain_partial, Recover.C265_silent, Uuid.C48_claim_false

**propext** (69): BTree.C164_claim_false, Buffer.C49_nil, Buffer.C49_nil_results, Buffer.C50_claim_false, Buffer.C84_claim_false, Buffer.C84_spare_capacity, Compress.C42_claim_false, Compress.C42_gzip_roundtrip_partial, Compress.C42_utilZlib_loses_partial, Compress.C42_zlibLevel_partial, Compress.C42_zlib_roundtrip_partial, Compress.C81_claim_false, Compress.C81_util_silent_partial, Concat.C267_claim_false, Concat.C267_lengths_partial, Concat.C267_marked_partial, Concat.C267_parts, Deflate.C244_utilUnZlib_silent, Fast.C262_append_false, Fast.C262_claim_false, FastFile.C136_claim_false, FastFile.C137_claim_false, FastFile.C140_claim_false, FastFile.C140_wrong_offset, Fastio.C88_claim_false, Fastio.C89_claim_false, FileExist.C210_who_asks, Image.C69_claim_false, Image.C69_negative_width, Image.C69_origin, Image.C69_overflow, Json.C198_claim_false, Json.C198_keys, Json.C198_nil, JsonDoc.C199_last, JsonDoc.C199_liberal, JsonDoc.C199_numbers, JsonStruct.C237_claim_false, JsonStruct.C237_omitempty_nil, LimitAny.C251_claim_false, LimitAny.C252_claim_false, LimitHashMap.C20_hashUint_injective, Lock.C91_claim_false, Lock.C91_high, Lock.C91_low, MmapAgain.C255_claim_false, MmapLife.C142_claim_false, MmapLife.C142_crash, MmapLife.C142_panic, MmapLife.C144_solaris_partial, OddKeys.C187_claim_false, OddKeys.C187_unchanged_partial, OddKeys.C189_nil, OddKeys.C189_range_partial, Post.C149_claim_false, Post.C151_claim_false, Post.C151_order_witness, Post.C153_claim_false, Post.C154_claim_false, ReadFile.C192_claim_false, ReadFile.C192_killed, ReadFile.C192_missing, StrTime.C146_claim_false, StrTime.C147_claim_false, Uuid.C44_claim_false, Uuid32.C211_same, Websocket.C117_claim_false, Websocket.C73_send_before_close, Websocket.C74_claim_false

**propext, Quot.sound** (230): Aes.C36_claim_false, Aes.C36_input_unchanged, Aes.C36_panic_iff_partial, Aes.C37_claim_false, Aes.C37_no_room_partial, AesCbc.C129_decrypt_standard, AesReal.C206_silent, AesReal.C35_aes_lawful, Await.C63_claim_false, Await.C92_claim_false, Await.C93_claim_false, Await.C93_error, Await.C93_timeout, Await.C94_claim_false, BTree.C163_degree, Base58.C01_base58_roundtrip, Base58.C02_base58_canonical, Base58.C02_base58_denotes, Base58.C02_base58_injective, Base58.C03_base58_value, Blake2b.C218_length, Bloom.C30_claim_false, Bloom.C32_claim_false, BloomConc.C261_claim_false, BloomString.C268_claim_false, Buffer.C49_claim_false, Buffer.C49_new, Checksum.C126_crc32_odd_missed, Checksum.C128_fnv32_collision, Compress.C81_compress_partial, Consistenthash.C23_claim_false, Consistenthash.C23_member_panic_witness, Consistenthash.C25_claim_false, Consistenthash.C27_restore_claim_false, Consistenthash.C78_claim_false, Consistenthash.C78_order_matters_witness, Crc8.C08_crc8_append, Crc8.C08_crc8_chain, Crc8.C09_crc8_two_bits_sharp, Digest.C204_claim_false, Digest.C204_lengths, Digest.C204_newAes, Digest.C204_spreads, Digest.C204_tail, Digest.C205_claim_false, Digest.C205_md5, Digest.C205_sha1, Fast.C262_careful_partial, Fast.C262_literal, Fast.C262_view, FastAwait.C94_claim_fast_false, FastAwait.C96_claim_false, FastAwait.C96_serial_false, FastAwait.C97_claim_false, FastFile.C135_claim_false, FastFile.C135_open, FastFile.C136_position, FastFile.C137_alone_partial, FastFile.C138_past_end, FastFile.C138_readAt, FastFile.C138_roundtrip, FastFile.C139_closed, FastFile.C140_inside_partial, Fastio.C56_stays, Fastio.C58_claim_false, Fastio.C87_claim_false, Fastio.C87_deadlock, Fastio.C88_dead, Fastio.C88_error_own, Fastio.C88_fast_error, Fastio.C88_fast_partial, Fastio.C88_lost, FileExist.C210_claim_false, FileExist.C210_dangling, FileExist.C210_true_partial, Float32Key.C264_claim_false, Float32Key.C264_nan, Float32Key.C264_number, GoPool.C100_claim_false, GoPool.C100_go_panic_partial, GoPool.C101_claim_false, GoPool.C103_claim_false, GoPool.C103_spins, GoPool.C66_claim_false, GoPool.C67_claim_false, GoPool.C67_minlimit_zero, GoPool.C68_claim_false, GoPool.C68_dispatcher_panics, GoPool.C98_claim_false, GoPool.C98_zero, GoPool.C99_claim_false, GoPool.C99_close_race, GoPoolDepth.C253_claim_false, GoPoolDepth.C253_closed_pool, GoPoolDepth.C253_depth_partial, Gob.C208_nil_element, Gob.C208_panic, Gob.C208_succeeds, Image.C111_format_partial, ImageTr.C174_grey, Json.C198_depth, JsonStruct.C238_claim_false, JsonStruct.C239_claim_false, JsonStruct.C240_claim_false, KeyBean.C82_claim_false, KeyBean.C82_not_symmetric, KeyBeanInto.C196_claim_false, KeyBeanInto.C196_error_touches, KeyBeanInto.C196_overlay, KeyBeanInto.C196_same_success, KeyStore.C39_claim_false, KeyStore.C39_fresh, KeyStore.C39_hash_format, KeyStore.C39_maps_partial, KeyStore.C39_only_digest, KeyStore.C41_all_lost, KeyStore.C41_claim_false, KeyStore.C41_prefix_partial, KeyStoreConc.C219_at_rest, KeyStoreDisk.C193_all_lost, KeyStoreDisk.C193_memory, KeyStoreDisk.C194_damaged_kept, KeyStoreDisk.C194_removed, KeyStoreDisk.C194_replaced, KeyStoreHeap.C183_claim_false, KeyStoreHeap.C183_own_record_partial, KeyStoreHeap.C183_record_kept, KeyStoreHeap.C183_write_through, KeyStoreMany.C182_not_loaded, LimitAny.C251_holders_partial, LimitAny.C252_cc, LimitAny.C252_own_partial, LimitAny.C252_unlock, LimitHashMap.C19_claim_false, LimitHashMap.C21_string_claim_false, LimitHashMap.C22_refuted, LimitHashMap.C77_float_partial, LimitHashMap.C77_float_zero_refuted, LimitMap.C17_claim_false, LimitMap.C18_put_spec, Linear.C160_len_claim_false, LinkedHashMap.C14_put_spec, LinkedHashMap.C15_claim_false, LinkedHashMap.C15_loadOrStore_refuted, LinkedHashMap.C16_delete_ahead_truncates, LinkedIter.C162_claim_false, Lock.C61_limit, Lock.C61_timeout, Lock.C91_partial, Lru.C34_spec, Map.C10_mapL_refines, Map.C10_map_refines, Map.C10_put_over_nil_reports_absent, Map.C10_range_full, Map.C10_range_prefix, Map.C11_mapL_len_can_be_negative, Map.C11_mapL_len_sequential, MapConc.C173_claim_false, Mmap.C55_panic_iff, Mmap.C55_range_partial, Mmap.C85_append_not_durable, MmapLife.C142_before_partial, MmapLife.C143_unmap_not_durable, OddKeys.C187_linked_put, OddKeys.C187_removeMulti, OddKeys.C188_claim_false, OddKeys.C188_not_found, OddKeys.C188_stuck, OddKeys.C188_unbounded, Pool.C51_claim_false, Pool.C51_empty_partial, Pool.C52_claim_false, Pool.C52_route_partial, Post.C149_checked_partial, Post.C149_unchecked, Post.C150_answer_partial, Post.C150_broken, Post.C150_claim_false, Post.C151_headers_partial, Post.C152_no_injection, Post.C153_delivered_partial, Post.C154_returns_partial, Post.C155_closed, ProtoTypes.C220_other_encoding, ProtoTypes.C220_other_wire, RWLock.C172_claim_false, RWLock.C172_read_in_callback, Race.C166_claim_false, RaceLock.C226_limit_two, RaceLock.C226_other_key, RaceMmap.C181_covered, ReadFile.C192_alone, ReadFile.C192_bytes, ReadFile.C192_snapshot_partial, ReadFile.C192_special, Recover.C265_rest, Regexp.C234_of_match, Rsa.C122_claim_false, Rsa.C125_which_key, Snappy.C195_accepts, Snappy.C195_accepts_s2, Snappy.C195_small, StrTime.C145_claim_false, StrTime.C148_claim_false, SyncMap.C232_once, TreeMap.C12_treeMap_iteration, TreeMap.C12_treeMap_refines, Uuid.C43_injective, Uuid.C43_roundtrip, Uuid.C44_dashes_partial, Uuid.C44_groups_partial, Uuid.C45_other_bits, Uuid.C45_version_variant, Uuid.C46_claim_false, Uuid.C46_variant_partial, Uuid.C48_equals_partial, Uuid.C83_claim_false, Uuid32.C211_claim_false, Uuid32.C211_repeats, UuidBytes.C266_claim_false, UuidMany.C263_claim_false, UuidNext.C186_decodes, UuidNext.C186_same, Websocket.C116_claim_false, Websocket.C73_error_stays, Websocket.C73_send_fails, Websocket.C73_send_returns, WsWire.C257_claim_false, WsWire.C258_claim_false, WsWire.C259_masked

**propext, Classical.choice, Quot.sound** (594): Aes.C35_aesEncrypter, Aes.C35_length, Aes.C35_roundtrip, Aes.C37_room_partial, Aes.C80_equal_prefixes, Aes.C80_injective, AesCbc.C129_encrypt_standard, AesCbc.C130_malleable, AesReal.C206_claim_false, AesReal.C206_hello, AesReal.C206_short, AesReal.C206_wrong_password, AesReal.C35_real, Await.C62_once, Await.C62_unblocked, Await.C62_value, Await.C62_zero, Await.C63_partial, Await.C63_partial_value, Await.C92_partial, Await.C93_partial, Await.C94_partial, AwaitLeak.C178_await, AwaitLeak.C178_fastAwait, BTree.C163_depth, BTree.C163_iteration, BTree.C163_refines, BTree.C164_nan_del, BTree.C164_nan_get, BTree.C164_nan_put, BTree.C164_partial, Base58.C02_base58_order, Base58.C03_base58_accepts, Base58.C03_base58_reencode, Base58.C03_base58_reject, Blake2b.C218_no_stage, Blake2b.C218_rfc, Bloom.C30_no_false_negative_partial, Bloom.C31_contains_exact, Bloom.C31_empty, Bloom.C31_forgets, Bloom.C32_disjoint_words_partial, BloomConc.C260_mutex, BloomConc.C260_progress, BloomConc.C260_steps, BloomConc.C260_two_arrays, BloomConc.C261_recent_partial, BloomRate.C197_claim_false, BloomRate.C197_fourteenfold, BloomRate.C197_lower, BloomRate.C197_rate_partial, BloomRate.C197_sizes, BloomRate.C197_upper, BloomString.C268_bound, BloomString.C268_exact_partial, Buffer.C49_capacity, Buffer.C49_since_reset, Buffer.C49_writes_partial, Buffer.C50_drain_partial, Buffer.C50_never_ends, Buffer.C50_read_partial, Buffer.C84_views_partial, Checksum.C126_crc32_burst, Checksum.C126_crc32_two_bits, Checksum.C127_crc64_burst, Checksum.C127_crc64_odd, Checksum.C127_crc64_two_bits, Checksum.C128_fnv_two_bytes, Consistenthash.C23_getStr_member_partial, Consistenthash.C23_getStr_panic_iff_partial, Consistenthash.C23_getStr_total_partial, Consistenthash.C23_nodes, Consistenthash.C24_getStr_exists, Consistenthash.C24_getStr_successor, Consistenthash.C24_get_successor, Consistenthash.C25_add_idempotent, Consistenthash.C25_set_determines_partial, Consistenthash.C26_add_minimal, Consistenthash.C26_add_minimal_new, Consistenthash.C27_del_gone, Consistenthash.C27_del_minimal, Consistenthash.C27_restore_partial, Consistenthash.C28_getNextNode, Consistenthash.C28_getNextNode_distinct, Consistenthash.C29_one_replica, Consistenthash.C29_point_injective, Consistenthash.C29_value_injective, Consistenthash.C79_collisionFree, Consistenthash.C79_placement, Consistenthash.C79_small_ids_injective, Crc8.C08_byte_poly_injective, Crc8.C08_crc8_is_remainder, Crc8.C09_crc8_burst, Crc8.C09_crc8_linear, Crc8.C09_crc8_odd, Crc8.C09_crc8_two_bits, Crc8.C09_crc8_undetected_iff, Deflate.C241_else, Deflate.C241_every, Deflate.C241_gzip, Deflate.C241_lawful, Deflate.C241_one_meaning, Deflate.C241_zlib, Deflate.C242_gzip_append, Deflate.C242_gzip_rest, Deflate.C242_zlib_rest, Deflate.C243_attained, Deflate.C243_bound, Deflate.C243_bound_utilUnGzip, Deflate.C243_no_smaller, Deflate.C244_claim_false, Deflate.C244_flushed, Deflate.C244_gzip_partial, Deflate.C244_member, Deflate.C244_utilUnGzip, Deflate.C244_utilUnZlib, Deflate.C244_utilUnZlib_header, Deflate.C244_utilUnZlib_sum, Deflate.C244_zlib_partial, Digest.C203_format, Digest.C203_text, Fast.C262_write, FastAwait.C64_once, FastAwait.C64_value, FastAwait.C64_zero, FastAwait.C94_fast_partial, FastAwait.C95_no_deadlock, FastAwait.C95_others, FastAwait.C96_partial, FastAwait.C97_partial, FastFile.C135_new_partial, FastFile.C136_eof, FastFile.C136_others_partial, FastFile.C137_exact_partial, Fastio.C131_lost, Fastio.C131_window, Fastio.C56_offset, Fastio.C57_atomic, Fastio.C57_complete, Fastio.C58_queue_partial, Fastio.C58_sync_partial, Fastio.C86_order, Fastio.C88_offset_partial, Fastio.C88_sequential, Fastio.C89_sync_partial, Float32Key.C264_found_partial, Float32Key.C264_refines, Float32Key.C264_same, Gif.C179_claim_false, Gif.C179_hides, Gif.C179_kept_partial, Gif.C179_pixels_partial, Gif.C179_redBlue, Gif.C179_screen, GoPool.C101_unexecuted_partial, GoPool.C102_put_never_blocks, GoPool.C103_dispatcher_ends_partial, GoPool.C65_at_most_once, GoPool.C66_limit_partial, GoPool.C67_all_run_partial, GoPool.C68_close_partial, GoPool.C98_go_returns_partial, GoPool.C99_panic_partial, GoPoolDepth.C253_open_pool, Gob.C207_again, Gob.C207_claim_false, Gob.C207_exact_partial, Gob.C207_unchanged_partial, Gob.C208_error, Gob.C208_truncated, Gob.C208_value_cut, GobType.C245_exact, GobType.C245_fields, GobType.C245_processes, GobType.C245_same, GobType.C245_truncated, GobType.C245_unchanged, GobType.C246_changed_field, GobType.C246_claim_false, GobType.C246_errors, GobType.C246_lost, GobType.C246_wider_partial, Gosignal.C120_swallowed, Gosignal.C76_once, Image.C104_box_partial, Image.C104_claim_false, Image.C105_ratio, Image.C106_claim_false, Image.C106_exact_partial, Image.C107_box_partial, Image.C107_claim_false, Image.C108_claim_false, Image.C108_limit_partial, Image.C109_icons, Image.C110_claim_false, Image.C110_gif_partial, Image.C111_claim_false, Image.C111_names, Image.C112_claim_false, Image.C112_webp_partial, Image.C112_wrong, Image.C113_claim_false, Image.C113_monotone_partial, Image.C114_not_empty, Image.C115_claim_false, Image.C115_side_partial, Image.C115_witnesses, Image.C69_crop_partial, Image.C70_claim_false, Image.C70_never_enlarges_partial, Image.C71_type, Image.C72_png, Image.C72_quality, ImageAgain.C200_again_partial, ImageAgain.C200_claim_false, ImageAgain.C200_mode0_iff, ImageAgain.C200_pictures, ImageAgain.C200_shrinks, ImageAgain.C200_third, ImageAgain.C201_claim_false, ImageAgain.C201_fields_partial, ImageAgain.C201_ignored, ImageAgain.C202_again, ImageAgain.C202_size, ImageAgain.C202_untouched, ImageCover.C190_claim_false, ImageCover.C190_cover_partial, ImageCover.C190_edges, ImageCover.C190_one_bound, ImageCover.C191_claim_false, ImageCover.C191_edges, ImageCover.C191_one_bound, ImageCover.C191_thumbnail_partial, ImageTr.C174_claim_false, ImageTr.C174_degrees, ImageTr.C174_laws, ImageTr.C174_picture_partial, ImageTr.C175_filter, ImageTr.C175_same_size, ImageTr.C175_small, ImageTr.C176_never_enlarges, ImageTr.C177_cropAnchor, ImageTr.C177_cropSide, ImageTr.C177_pixels, ImageTr.C177_scale, ImageTr.C177_size, Json.C198_exact, Json.C198_injective, Json.C198_plain, Json.C198_roundtrip_partial, Json.C198_stable, JsonDoc.C199_null, JsonDoc.C199_reads, JsonDoc.C199_unique, JsonDoc.C199_writes, JsonStruct.C237_back, JsonStruct.C237_injective, JsonStruct.C237_roundtrip, JsonStruct.C237_stable, JsonStruct.C238_added, JsonStruct.C238_int, JsonStruct.C238_removed, JsonStruct.C238_view, JsonStruct.C239_fields, JsonStruct.C239_last, JsonStruct.C239_merge, JsonStruct.C239_null, JsonStruct.C239_order, JsonStruct.C239_unknown, JsonStruct.C240_ok, JsonStruct.C240_syntax, JsonStruct.C240_type, JsonStruct.C240_unique, KeyBean.C38_nil_user, KeyBean.C38_reader, KeyBean.C38_roundtrip, KeyBean.C38_truncated, KeyBean.C38_unknown_fields, KeyBean.C82_complete_partial, KeyBean.C82_sound_partial, KeyBeanInto.C196_roundtrip_partial, KeyPwd.C209_claim_false, KeyPwd.C209_fits_partial, KeyPwd.C209_other, KeyPwd.C209_right, KeyPwd.C209_unsalted, KeyStore.C40_claim_false, KeyStore.C40_everything_lost_partial, KeyStore.C40_reader_partial, KeyStore.C40_restart_partial, KeyStoreConc.C219_linearizable, KeyStoreDisk.C193_claim_false, KeyStoreDisk.C193_repair_partial, KeyStoreDisk.C193_short, KeyStoreDisk.C194_claim_false, KeyStoreDisk.C194_damaged_lost, KeyStoreDisk.C194_restart_partial, KeyStoreMany.C182_claim_false, KeyStoreMany.C182_last_writer_partial, KeyStoreMany.C182_one_store, KeyStoreMany.C182_own_calls, LimitAny.C251_limit_partial, LimitHashMap.C19_capacity_partial, LimitHashMap.C19_general_bound, LimitHashMap.C20_hashInt_injective, LimitHashMap.C20_limitHashMap_refines, LimitHashMap.C20_refines_on_hashes, LimitHashMap.C21_injective, LimitHashMap.C21_same_hash_partial, LimitHashMap.C22_put_over_nil_panics, LimitHashMap.C22_put_then_get_partial, LimitMap.C17_bound_reached, LimitMap.C17_capacity_partial, LimitMap.C18_limitMap_refines, Linear.C156_at_rest, Linear.C156_limitMap_linearizable, Linear.C157_lru_linearizable, Linear.C158_treeMap_linearizable, Linear.C159_consistenthash_linearizable, Linear.C160_segments_linearizable, LinkedConc.C161_at_rest, LinkedConc.C161_claim_false, LinkedConc.C161_explained_partial, LinkedConc.C161_linearizable_partial, LinkedHashMap.C13_limit, LinkedHashMap.C14_linkedHashMap_refines, LinkedHashMap.C15_loadOrStore_partial, LinkedHashMap.C16_iterate, LinkedHashMap.C16_iterate_deleting, LinkedIter.C162_calm_partial, LinkedIter.C162_cleared, LinkedIter.C162_iterators_exact, LinkedIter.C162_never_ends, Lock.C59_exclusive, Lock.C59_keys, Lock.C59_progress, Lock.C60_exclusive, Lock.C60_progress, Lock.C61_counts, Lock.C90_claim_false, Lock.C90_num, Lock.C90_partial, Lock.C90_str, LockOrder.C214_claim_false, LockOrder.C214_num_partial, LockOrder.C214_reader_again, LockOrder.C214_self, LockOrder.C214_str_partial, Lru.C33_capacity, Lru.C33_negative, Lru.C33_size, Lru.C33_unlimited, Lru.C34_lru_refines, Map.C11_mapL_len_error, Map.C11_mapL_len_quiescent, MapConc.C173_map, MapConc.C173_mapL_partial, Mmap.C53_append_only, Mmap.C53_data, Mmap.C53_disjoint, Mmap.C54_append, Mmap.C54_claim_false, Mmap.C54_frame, Mmap.C54_panic_iff, Mmap.C54_writeAt_partial, Mmap.C55_windows, Mmap.C85_append_only, Mmap.C85_durable, MmapAgain.C254_claim_false, MmapAgain.C254_sessions_partial, MmapAgain.C255_parts_partial, MmapAgain.C255_same_mapping, MmapLife.C141_leak_partial, MmapLife.C142_after_partial, MmapLife.C142_quiet_partial, MmapLife.C143_append_only, MmapLife.C143_close, MmapLife.C144_claim_false, Num.C04_bytes16_roundtrip, Num.C04_bytes32_roundtrip, Num.C04_bytes64_roundtrip, Num.C04_int16_denotes, Num.C04_int16_roundtrip, Num.C04_int32_denotes, Num.C04_int32_roundtrip, Num.C04_int64_denotes, Num.C04_int64_roundtrip, Num.C05_int16_long, Num.C05_int16_short, Num.C05_int32_long, Num.C05_int32_short, Num.C05_int64_long, Num.C05_int64_short, Num.C06_int64_mixed_sign, Num.C06_int64_signed_order, Num.C06_int64_unsigned_order, Num.C07_bytesToIntArray_trailing, Num.C07_bytesToIntArray_values, Num.C07_intArray_elements, Num.C07_intArray_roundtrip, OddKeys.C187_limit_lost, OddKeys.C188_limit_partial, Pool.C51_exclusive_partial, Pool.C51_put_partial, Pool.C52_route_large, PostScheme.C149_scheme, PostScheme.C149_tls, PostWire.C212_first, PostWire.C212_one_request, PostWire.C213_arrive_partial, PostWire.C213_claim_false, PostWire.C213_cookies, PostWire.C213_from, PostWire.C213_own, Proto.C215_again, Proto.C215_back, Proto.C215_claim_false, Proto.C215_deep, Proto.C215_different, Proto.C215_never_another, Proto.C215_refused, Proto.C216_after, Proto.C216_concat, Proto.C217_passes_on, ProtoTypes.C220_kept, ProtoTypes.C220_number, ProtoTypes.C220_retyped, RWLock.C171_consistenthash, RWLock.C171_limitHashMap, RWLock.C171_limitMap, RWLock.C171_linkedHashMap, RWLock.C171_lruCache, RWLock.C171_storeAdmin, RWLock.C171_treeMap, RWLock.C172_readers_partial, RWLock.C172_write_in_callback, Race.C165_consistenthash, Race.C165_limitHashMap, Race.C165_limitMap, Race.C165_lruCache, Race.C165_storeAdmin, Race.C165_treeMap, Race.C166_only_pointer_partial, Race.C166_without_clear_partial, Race.C166_without_get_partial, Race.C167_claim_false, Race.C167_limitLock_false, Race.C167_limitLock_partial, Race.C167_mapL_false, Race.C167_mapL_partial, Race.C168_claim_false, Race.C168_contains_false, Race.C168_count_partial, Race.C168_segment_false, Race.C169_claim_false, Race.C169_send_partial, Race.C170_claim_false, Race.C170_go_false, Race.C170_rest_partial, RaceFastio.C180_claim_false, RaceFastio.C180_close, RaceFastio.C180_ioend, RaceFastio.C180_offset_partial, RaceFastio.C180_wc, RaceHand.C227_await_partial, RaceHand.C227_claim_false, RaceHand.C227_fast_partial, RaceHand.C227_put, RaceHand.C227_waits, RaceHand.C228_await, RaceHand.C228_fastAwait, RaceHand.C229_box, RaceHand.C229_linked, RaceHand.C229_map, RaceHand.C230_pool, RaceLock.C226_limit_one, RaceLock.C226_numlock, RaceLock.C226_strlock, RaceMmap.C181_mmap, RaceUuid.C184_claim_false, RaceUuid.C184_race_free_partial, RaceUuid.C184_seq, Rand.C132_range, Rand.C132_unbiased, Rand.C133_claim_false, Rand.C133_unreachable, Rand.C134_range, Rand.C134_unbiased, Regexp.C233_finds, Regexp.C233_one_meaning, Regexp.C233_runes, Regexp.C234_steps, Regexp.C235_claim_caret_false, Regexp.C235_claim_false, Regexp.C235_claim_text_false, Regexp.C235_text, Regexp.C235_whole, Regexp.C236_claim_false, Regexp.C236_extra_paren, Regexp.C236_missing_paren, Regexp.C236_no_utf8, Regexp.C236_others, Resample.C247_blocks, Resample.C247_colours, Resample.C247_place, Resample.C248_claim_false, Resample.C248_filters, Resample.C248_four_partial, Resample.C248_one_colour_partial, Resample.C248_opacity_partial, Resample.C248_shades_partial, Resample.C249_blur, Resample.C249_local, Resample.C250_fill, Resample.C250_size, Rsa.C121_rsa_roundtrip, Rsa.C122_silent_partial, Rsa.C123_decrypt_accepts, Rsa.C123_decrypt_short, Rsa.C124_injective, Rsa.C124_too_long, Rsa.C125_embedded_key, Snappy.C195_agree, Snappy.C195_announced, Snappy.C195_bomb, Snappy.C195_bound, Snappy.C195_claim_false, Snappy.C195_disagree, Snappy.C195_roundtrip_partial, Snappy.C195_silent, Snappy.C195_truncated, Snappy.C195_truncated_s2, Snappy.C195_undetected, StrTime.C145_accepts_partial, StrTime.C145_canonical, StrTime.C145_nineteen, StrTime.C145_unambiguous, StrTime.C146_panic_partial, StrTime.C147_gap, StrTime.C147_late, StrTime.C147_shows_partial, StrTime.C148_order_fixed, StrTime.C148_order_partial, SyncMap.C231_linearizable, SyncMap.C231_progress, SyncMap.C232_claim_false, SyncMap.C232_range, ThriftStruct.C221_back, ThriftStruct.C221_cut, ThriftStruct.C221_wire, ThriftStruct.C222_read, ThriftStruct.C222_refused, ThriftStruct.C223_doubles, ThriftStruct.C223_prefix, ThriftStruct.C224_claim_false, ThriftStruct.C224_forgets, ThriftStruct.C225_claim_false, ThriftStruct.C225_deep, ThriftStruct.C225_partial, Uuid.C46_small_seq_partial, Uuid.C47_bound, Uuid.C47_unique, Uuid.C83_collision, Uuid.C83_hash_partial, UuidBytes.C266_append, UuidBytes.C266_own_partial, UuidBytes.C266_sixteen, UuidBytes.C266_slice, UuidBytes.C266_write, UuidMany.C263_apart_partial, UuidMany.C263_chance_partial, UuidMany.C263_one, UuidMany.C263_same, UuidNext.C185_claim_false, UuidNext.C185_next_partial, UuidNext.C185_window_partial, UuidNext.C186_length, Websocket.C116_messages_partial, Websocket.C117_onError_partial, Websocket.C118_close_ends, Websocket.C119_no_mixing, Websocket.C119_no_waiting, Websocket.C74_callbacks_partial, Websocket.C75_iff, Websocket.C75_tls, WsWire.C256_frames, WsWire.C256_send, WsWire.C257_bytes_partial, WsWire.C257_too_large, WsWire.C257_whole_partial, WsWire.C258_cut_partial, WsWire.C258_reset, WsWire.C259_any_bytes, WsWire.C259_pongs
