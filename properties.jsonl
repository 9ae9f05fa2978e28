{"id": "C01", "title": "Base58 round trip", "statement": "For every uint64 v, DecodeForInt64(EncodeForInt64(v)) returns (v, true).", "quantifier": "every uint64 value", "why_tests_cant": "2^64 inputs; a test samples a handful", "anchors": ["base58/base58.go:EncodeForInt64", "base58/base58.go:DecodeForInt64", "base58/base58.go:reverseBytes"]}
{"id": "C02", "title": "Base58 output is canonical and order preserving", "statement": "EncodeForInt64(v) uses only the 58 alphabet bytes, never starts with '1', is empty exactly for v=0, is at most 11 bytes, and v<w iff the encoding of v is shorter, or equally long and alphabet-lexicographically smaller, than that of w.", "quantifier": "every pair of uint64 values", "why_tests_cant": "2^64 inputs; a test samples a handful; a relation on pairs", "anchors": ["base58/base58.go:EncodeForInt64"]}
{"id": "C03", "title": "Base58 decoding accepts exactly alphabet strings", "statement": "DecodeForInt64(bs) succeeds iff every byte of bs is in the alphabet; then the result is the base-58 positional value of bs modulo 2^64; otherwise the result is (0,false). Re-encoding the decoded value gives bs back exactly when bs has no leading '1' and its value is below 2^64; larger values wrap silently.", "quantifier": "every byte slice of any length", "why_tests_cant": "inputs are unbounded byte strings", "anchors": ["base58/base58.go:DecodeForInt64"]}
{"id": "C04", "title": "Integer/byte round trips", "statement": "For N=16,32,64 and every intN n, BytesToIntN(IntNToBytes(n)) = n, the encoding has exactly N/8 bytes, and for every byte slice of exactly N/8 bytes IntNToBytes(BytesToIntN(bs)) = bs.", "quantifier": "every int16/int32/int64 and every byte slice of the exact width", "why_tests_cant": "2^64 values per width", "anchors": ["util/num.go:Int64ToBytes", "util/num.go:BytesToInt64", "util/num.go:Int32ToBytes", "util/num.go:BytesToInt32", "util/num.go:Int16ToBytes", "util/num.go:BytesToInt16", "hashmap/consistenthash.go:int64ToBytes", "buffer/buffer.go:int32ToBytes", "uuid/uuid.go:int64ToBytes", "uuid/uuid.go:bytesToInt64"]}
{"id": "C05", "title": "Byte decoding of short and long slices", "statement": "BytesToIntN of a slice shorter than N/8 bytes is its zero-extended big-endian value (no sign extension); of a longer slice it is the value of the first N/8 bytes only.", "quantifier": "byte slices of every length", "why_tests_cant": "unbounded inputs", "anchors": ["util/num.go:BytesToInt64", "util/num.go:BytesToInt32", "util/num.go:BytesToInt16"]}
{"id": "C06", "title": "Encoded integers sort like the integers", "statement": "For int64 a,b of equal sign, a<b iff Int64ToBytes(a) is lexicographically smaller than Int64ToBytes(b); in general the byte order is the unsigned order.", "quantifier": "every pair of int64", "why_tests_cant": "pairs of 2^64 values", "anchors": ["util/num.go:Int64ToBytes"]}
{"id": "C07", "title": "Int array round trip", "statement": "BytesToIntArray(IntArrayToBytes(xs)) = xs for every []int64; BytesToIntArray ignores the trailing len%8 bytes and returns len/8 values.", "quantifier": "every []int64 of any length, every []byte", "why_tests_cant": "unbounded lengths", "anchors": ["util/num.go:IntArrayToBytes", "util/num.go:BytesToIntArray"]}
{"id": "C08", "title": "CRC8 is the CRC of x^8+x^2+x+1", "statement": "For every message, the table driven CRC8 equals bit-by-bit polynomial division by x^8+x^2+x+1 with zero initial value; it is chainable over concatenation; appending the CRC to the message makes the CRC zero.", "quantifier": "every byte slice", "why_tests_cant": "unbounded messages", "anchors": ["util/encode.go:CRC8", "util/encode.go:crc8Tab"]}
{"id": "C09", "title": "CRC8 error detection", "statement": "CRC8 is linear over XOR of equal-length messages; it detects every non-zero error confined to 8 consecutive bits, every single-bit error, every error flipping an odd number of bits, and every two-bit error whose positions differ by less than 127.", "quantifier": "every message and every error pattern of the given class", "why_tests_cant": "all messages times all error positions", "anchors": ["util/encode.go:CRC8"]}
{"id": "C10", "title": "Map and MapL behave as a key/value map", "statement": "After any sequence of Put/Del, Get(k) returns the value last put for k if it was not deleted since, else reports absent; Has agrees; Put returns the previous value; Del reports whether k was present; Range visits every present key exactly once with its value until the callback returns false.", "quantifier": "every finite operation history, every key type with decidable equality", "why_tests_cant": "unbounded histories", "anchors": ["hashmap/map.go:Map", "hashmap/map.go:MapL"]}
{"id": "C11", "title": "MapL.Len counts the entries", "statement": "In any interleaving of concurrent Put/Del calls, once no call is in flight Len() equals the number of present keys. (While calls are in flight Len can differ, and can even be negative.)", "quantifier": "every interleaving of any number of goroutines", "why_tests_cant": "schedules cannot be enumerated", "anchors": ["hashmap/map.go:MapL.Put", "hashmap/map.go:MapL.Del", "hashmap/map.go:MapL.Len"]}
{"id": "C12", "title": "TreeMap is a sorted map", "statement": "After any history of Put/Del, Get returns the latest value; Put returns the previous value and whether there was one; Ascend visits every entry in strictly increasing key order, Descend in the exact reverse, both stopping when the callback returns false.", "quantifier": "every history, every totally ordered key type", "why_tests_cant": "unbounded histories", "anchors": ["hashmap/treemap.go:TreeMap"]}
{"id": "C13", "title": "LinkedHashMap never exceeds its limit", "statement": "After any history with limit L, Len() <= max(L,0), and Len() is exactly the number of keys for which Get succeeds.", "quantifier": "every history and every limit (including 0 and negative)", "why_tests_cant": "unbounded histories", "anchors": ["hashmap/linkedhashmap.go:LinkedHashMap.Put", "hashmap/linkedhashmap.go:LinkedHashMap.Len"]}
{"id": "C14", "title": "LinkedHashMap is a recency ordered map", "statement": "Every history of Put, LoadOrStore, Get, Delete, MoveToFront, Clear, Front, Back, Len returns exactly what a list of (key,value) pairs ordered by last Put/MoveToFront returns; Put of a new key over the limit drops exactly the least recently put/moved entry; Get does not affect the order.", "quantifier": "every history", "why_tests_cant": "unbounded histories and pointer level list surgery", "anchors": ["hashmap/linkedhashmap.go:LinkedHashMap"]}
{"id": "C15", "title": "LinkedHashMap.LoadOrStore keeps the existing value", "statement": "As the name promises (sync.Map.LoadOrStore), LoadOrStore(k,v) on a present key returns the existing value and leaves it stored.", "quantifier": "every state and key", "why_tests_cant": "statement about every state", "anchors": ["hashmap/linkedhashmap.go:LinkedHashMap.LoadOrStore"]}
{"id": "C16", "title": "LinkedHashMap iteration", "statement": "An iterator over an unmodified map yields every entry exactly once, newest to oldest (front=true) or oldest to newest, then reports the end forever. Deleting the entry just returned while iterating is safe: the remaining entries are still all yielded.", "quantifier": "every map content, both directions, every subset of deletions", "why_tests_cant": "unbounded sizes and deletion choices", "anchors": ["hashmap/linkedhashmap.go:LinkedHashMap.Iterator", "hashmap/linkedhashmap.go:LinkedHashMapIterator.Next"]}
{"id": "C17", "title": "LimitMap respects its capacity", "statement": "After any history, a LimitMap created with capacity C holds at most C entries.", "quantifier": "every history and capacity", "why_tests_cant": "unbounded histories", "anchors": ["hashmap/limitmap.go:LimitMap.Put", "hashmap/limitmap.go:LimitMap.Len"]}
{"id": "C18", "title": "LimitMap is a write-recency map", "statement": "Every history of Put/Get/Del/RemoveMulti/Len returns what a list ordered by last Put returns; a Put of a new key into a full map removes exactly the entry whose last Put is oldest; Get does not refresh.", "quantifier": "every history", "why_tests_cant": "unbounded histories", "anchors": ["hashmap/limitmap.go:LimitMap"]}
{"id": "C19", "title": "LimitHashMap respects its capacity", "statement": "After any history, a LimitHashMap created with total capacity C holds at most C entries.", "quantifier": "every history, capacity and segment count", "why_tests_cant": "unbounded histories", "anchors": ["hashmap/limithashmap.go:NewLimitHashMapWithSegment", "hashmap/limithashmap.go:LimitHashMap.Put", "hashmap/limithashmap.go:LimitHashMap.Len"]}
{"id": "C20", "title": "LimitHashMap is a map with per-segment FIFO eviction", "statement": "For key types whose hash is injective, every history of Put/Get/Del/Contains/Clear/Len returns what an independent FIFO-bounded map per segment returns; updates do not change an entry's age.", "quantifier": "every history", "why_tests_cant": "unbounded histories", "anchors": ["hashmap/limithashmap.go:LimitHashMap"]}
{"id": "C21", "title": "LimitHashMap never confuses two keys", "statement": "Get(k) only ever returns a value that was Put under k itself.", "quantifier": "every history and every key type", "why_tests_cant": "needs hash collisions, which tests do not hit", "anchors": ["hashmap/limithashmap.go:LimitHashMap.hashFunc", "hashmap/limithashmap.go:LimitHashMap.Get"]}
{"id": "C22", "title": "LimitHashMap with nil values", "statement": "A key that was Put with a nil interface value is reported present by Get as well as by Contains, and can be Put again.", "quantifier": "every history with nil values", "why_tests_cant": "corner of the value space", "anchors": ["hashmap/limithashmap.go:LimitHashMap.Get", "hashmap/limithashmap.go:LimitHashMap.Put"]}
{"id": "C23", "title": "Consistenthash.Get is total", "statement": "With at least one replica, Get/GetStr never panic; they return a currently added node iff there is one.", "quantifier": "every history of Add/Del and every value", "why_tests_cant": "histories; the failing state needs Del of the last node", "anchors": ["hashmap/consistenthash.go:Consistenthash.Get", "hashmap/consistenthash.go:Consistenthash.GetStr", "hashmap/consistenthash.go:Consistenthash.Del"]}
{"id": "C24", "title": "Consistenthash routes to the clockwise successor", "statement": "Get(v) returns the node owning the smallest ring point >= hash(v), wrapping to the smallest point overall.", "quantifier": "every ring and every value", "why_tests_cant": "unbounded rings", "anchors": ["hashmap/consistenthash.go:Consistenthash.Get"]}
{"id": "C25", "title": "Consistenthash placement depends only on the node set", "statement": "Without ring-point collisions, any two histories of Add/Del that end with the same node set give identical Get/GetStr results for every value; Add is idempotent.", "quantifier": "every pair of histories", "why_tests_cant": "unbounded histories", "anchors": ["hashmap/consistenthash.go:Consistenthash.Add", "hashmap/consistenthash.go:Consistenthash.Del"]}
{"id": "C26", "title": "Minimal disruption on Add", "statement": "Adding a node n changes Get(v) only for values that now go to n.", "quantifier": "every ring, node and value", "why_tests_cant": "all rings and values", "anchors": ["hashmap/consistenthash.go:Consistenthash.Add"]}
{"id": "C27", "title": "Minimal disruption on Del", "statement": "Deleting a node n changes Get(v) only for values that went to n; deleting a node just added restores every assignment.", "quantifier": "every ring, node and value", "why_tests_cant": "all rings and values", "anchors": ["hashmap/consistenthash.go:Consistenthash.Del"]}
{"id": "C28", "title": "GetNextNodeStr gives distinct backups", "statement": "GetNextNodeStr(v,step) with step>0 returns at most step nodes, pairwise distinct, all members, none equal to the primary, in clockwise order of first appearance after the primary's point up to the end of the ring.", "quantifier": "every ring, value and step", "why_tests_cant": "all rings", "anchors": ["hashmap/consistenthash.go:Consistenthash.GetNextNodeStr"]}
{"id": "C29", "title": "Ring points of different nodes at the same replica index differ", "statement": "For a fixed replica index, two different node ids never hash to the same ring point, and two different int64 values never hash to the same lookup point.", "quantifier": "every pair of int64 ids, every replica index", "why_tests_cant": "2^128 pairs", "anchors": ["hashmap/consistenthash.go:hash", "hashmap/consistenthash.go:Consistenthash.Add"]}
{"id": "C30", "title": "Bloom filter has no recent false negatives", "statement": "Sequentially, after Add(x), Contains(x) stays true through at least the next E=expectedItems further Adds.", "quantifier": "every history of Add/Contains and every hash function", "why_tests_cant": "unbounded histories; rotation happens after E adds", "anchors": ["cache/bloom.go:BloomFilter.Add", "cache/bloom.go:BloomFilter.Contains", "cache/bloom.go:BloomFilter.getBitIndex"]}
{"id": "C31", "title": "Bloom filter forgets", "statement": "The answer of Contains depends only on the items of the last at most 2E+1 Adds; older ones have no influence, and with no Adds Contains is false.", "quantifier": "every history", "why_tests_cant": "unbounded histories", "anchors": ["cache/bloom.go:BloomFilter.getBitIndex"]}
{"id": "C32", "title": "Bloom filter is safe for concurrent Add", "statement": "With concurrent Adds inside one generation, every item whose Add returned is reported present.", "quantifier": "every interleaving", "why_tests_cant": "data races are schedule dependent", "anchors": ["cache/bloom.go:BloomFilter.setBit"]}
{"id": "C33", "title": "LruCache capacity", "statement": "With maxEntries M>0 the cache never holds more than M entries; with M=0 it is unbounded.", "quantifier": "every history", "why_tests_cant": "unbounded histories", "anchors": ["cache/lrucache.go:LruCache"]}
{"id": "C34", "title": "LruCache is least-recently-used", "statement": "Every history of Add/Get/Remove/RemoveMulti returns what a recency list returns; both Get and Add refresh; adding to a full cache evicts exactly the least recently used key; a nil key is ignored by Add.", "quantifier": "every history", "why_tests_cant": "unbounded histories", "anchors": ["cache/lrucache.go:LruCache"]}
{"id": "C35", "title": "AES-CBC round trip", "statement": "For every key, iv and plaintext, DecrypterCbc(EncrypterCbc(src)) = src; the ciphertext length is the next multiple of 16 strictly above len(src).", "quantifier": "every plaintext length, every key", "why_tests_cant": "unbounded plaintexts", "anchors": ["keystore/aes.go:Aes.EncrypterCbc", "keystore/aes.go:Aes.DecrypterCbc", "keystore/aes.go:AesEncrypter", "keystore/aes.go:AesDecrypter"]}
{"id": "C36", "title": "AES decryption never panics", "statement": "DecrypterCbc returns normally on every input.", "quantifier": "every byte slice", "why_tests_cant": "unbounded malformed inputs", "anchors": ["keystore/aes.go:Aes.DecrypterCbc"]}
{"id": "C37", "title": "AES encryption leaves the caller's buffer alone", "statement": "EncrypterCbc does not modify the bytes of src or of the array behind it.", "quantifier": "every slice, including those with spare capacity", "why_tests_cant": "depends on slice capacity", "anchors": ["keystore/aes.go:Aes.EncrypterCbc"]}
{"id": "C38", "title": "KeyBean serialisation round trip", "statement": "Writing a KeyBean and reading it back yields the same KeyBean, with nil maps kept apart from empty ones, whatever order Go iterates the maps in and whatever follows in the buffer; unknown and mistyped fields are skipped; a truncated encoding is rejected; a KeyBean holding a nil user is written but rejected on reading.", "quantifier": "every KeyBean within the protocol's size limit, every map iteration order, every truncation point, every well-formed extra field", "why_tests_cant": "map iteration order is random; all beans and all extra fields", "anchors": ["keystore/store.go:KeyBean.Write", "keystore/store.go:KeyBean.Read", "keystore/store.go:UserBean.Write", "keystore/store.go:UserBean.Read"]}
{"id": "C39", "title": "Credential store is four independent maps", "statement": "After Load, every history of Put/Get/Del/List on admin, client, mq and other returns what four independent maps return; users are stored under their name with the MD5 of the password, never the password itself.", "quantifier": "every history", "why_tests_cant": "unbounded histories", "anchors": ["keystore/keystore.go:storeAdmin"]}
{"id": "C40", "title": "Credential store survives a restart", "statement": "After any history of updates, a fresh store that Loads the same file answers every Get as before.", "quantifier": "every history", "why_tests_cant": "needs all histories and codec behaviour", "anchors": ["keystore/keystore.go:storeAdmin.Load", "keystore/bin.go:_keyStore.Write", "keystore/bin.go:_keyStore.Read", "util/compress.go:Zlib"]}
{"id": "C41", "title": "Key file update is crash safe", "statement": "If the process stops at any point during a Write, a later Read yields the old or the new contents.", "quantifier": "every crash point", "why_tests_cant": "crash points", "anchors": ["keystore/bin.go:_keyStore.Write"]}
{"id": "C42", "title": "Compression round trips", "statement": "Un*(Compress(x)) = x for compress.Zlib/ZlibLevel/Gzip and util.Zlib/Gzip.", "quantifier": "every input, every lawful deflate codec", "why_tests_cant": "depends on buffering of the codec", "anchors": ["compress/compress.go", "util/compress.go"]}
{"id": "C43", "title": "UUID text round trip", "statement": "Parse(u.String()) yields the same 16 bytes for every UUID, and String has the 8-4-4-4-12 lower-case hex layout.", "quantifier": "every 128-bit UUID", "why_tests_cant": "2^128 values", "anchors": ["uuid/uuid.go:UUID.String", "uuid/uuid.go:Parse"]}
{"id": "C44", "title": "UUID parsing accepts only UUID text", "statement": "Parse(s) succeeds only on strings in 8-4-4-4-12 layout with '-' separators.", "quantifier": "every string", "why_tests_cant": "unbounded strings", "anchors": ["uuid/uuid.go:Parse"]}
{"id": "C45", "title": "Generated UUIDs have version 4 and the RFC variant", "statement": "Every NewUUID has Version() 4 and RFC 4122 variant bits.", "quantifier": "every hash value and sequence number", "why_tests_cant": "all hash outputs", "anchors": ["uuid/uuid.go:NewUUID", "uuid/uuid.go:UUID.Version", "uuid/uuid.go:UUID.Variant"]}
{"id": "C46", "title": "Variant reports RFC 4122", "statement": "Variant() returns 1 for every UUID whose variant bits are 10x.", "quantifier": "every UUID", "why_tests_cant": "all 16-byte values", "anchors": ["uuid/uuid.go:UUID.Variant"]}
{"id": "C47", "title": "UUIDs are unique in a process", "statement": "In any interleaving of concurrent NewUUID calls, any two of up to 2^62 generated UUIDs differ, whatever the hash function.", "quantifier": "every interleaving, every hash function", "why_tests_cant": "2^62 calls", "anchors": ["uuid/uuid.go:NewUUID", "uuid/uuid.go:localbase.getSeq"]}
{"id": "C48", "title": "UUID equality", "statement": "u.Equals(v) is true iff u and v hold the same 16 bytes.", "quantifier": "every pair of UUID objects", "why_tests_cant": "pointer identity", "anchors": ["uuid/uuid.go:UUID.Equals"]}
{"id": "C49", "title": "Buffer accumulates writes", "statement": "After any sequence of Write/WriteString/WriteByte/WriteInt32/Reset, Bytes() is the concatenation of what was written since the last Reset and Len() its length, and each call returns the number of bytes it appended.", "quantifier": "every history", "why_tests_cant": "unbounded histories", "anchors": ["buffer/buffer.go:Buffer"]}
{"id": "C50", "title": "Buffer.Read drains the buffer", "statement": "Reading repeatedly with any buffer sizes returns every byte exactly once and then reports end of data.", "quantifier": "every content and every sequence of read sizes", "why_tests_cant": "unbounded", "anchors": ["buffer/buffer.go:Buffer.Read"]}
{"id": "C51", "title": "Pooled buffers are exclusive", "statement": "A pooled object is never handed to two users at once, and a buffer obtained from the pool is always empty.", "quantifier": "every history of Get/Free by any users", "why_tests_cant": "histories", "anchors": ["pool/buffer/pool.go:pool", "buffer/buffer.go:Buffer.Free", "buffer/buffer.go:NewBufferByPool"]}
{"id": "C52", "title": "BufferPool selects a size class", "statement": "BufferPool.Get(n)/Put route to the size class matching the length.", "quantifier": "every length and pool size", "why_tests_cant": "all lengths", "anchors": ["pool/buffer/buffer.go:BufferPool.getRouter"]}
{"id": "C53", "title": "Mmap appends get disjoint regions", "statement": "In any interleaving, successful Appends return the start of pairwise disjoint regions inside the file, laid out back to back from the (non-negative) start offset as long as no WriteAt is used, and always behind all regions handed out before, and after the calls return the mapped bytes hold each caller's data.", "quantifier": "every interleaving and sizes", "why_tests_cant": "schedules", "anchors": ["mmap/mmap.go:Mmap.Append"]}
{"id": "C54", "title": "Mmap writes are bounds checked", "statement": "Append/WriteAt that would pass the end of the file fail with an error and change nothing; others never touch bytes outside their range.", "quantifier": "every offset and length", "why_tests_cant": "all offsets", "anchors": ["mmap/mmap.go:Mmap.Append", "mmap/mmap.go:Mmap.WriteAt"]}
{"id": "C55", "title": "Mmap sync covers the written range", "statement": "The range flushed by AppendSync/WriteAtSync starts at a page boundary and covers exactly from there to the end of the data.", "quantifier": "every offset, length and page size", "why_tests_cant": "all offsets", "anchors": ["mmap/sync_unix.go:mmapSyncToDisk"]}
{"id": "C56", "title": "fastio WriteSync returns the right offset", "statement": "In any interleaving without I/O errors, when WriteSync(bs) returns off, the file holds bs at off.", "quantifier": "every interleaving of any number of writers", "why_tests_cant": "schedules", "anchors": ["fastio/fw.go:mwriter.WriteSync", "fastio/fw.go:mwriter.ioWrite"]}
{"id": "C57", "title": "fastio writes are atomic and not duplicated", "statement": "In any interleaving without I/O errors, the file is at any time a prefix of the initial contents followed by the concatenation of complete payloads of distinct calls, each at most once, and is exactly that whenever no write is under way (nobody holds the lock). Every WriteSync that has returned is one of these calls; a Write that has returned is one of them or still queued, never both.", "quantifier": "every interleaving", "why_tests_cant": "schedules", "anchors": ["fastio/fw.go"]}
{"id": "C58", "title": "fastio acknowledged writes reach the file", "statement": "When Write returns and no call is in flight, its data is in the file.", "quantifier": "every interleaving", "why_tests_cant": "needs a specific race", "anchors": ["fastio/fw.go:mwriter.Write"]}
{"id": "C59", "title": "Numlock mutual exclusion", "statement": "In any interleaving no two goroutines hold the lock for the same key; every key of the full int64 range maps to an existing mutex.", "quantifier": "every interleaving, every int64 key including negatives", "why_tests_cant": "schedules and keys", "anchors": ["lock/lock.go:Numlock"]}
{"id": "C60", "title": "Strlock reader/writer exclusion", "statement": "In any interleaving a writer of a key excludes every other holder of that key; readers of a key exclude writers only.", "quantifier": "every interleaving and hash function", "why_tests_cant": "schedules", "anchors": ["lock/lock.go:Strlock"]}
{"id": "C61", "title": "LimitLock admits at most limit holders", "statement": "In any interleaving at most limit goroutines are between a successful Lock and Unlock; a Lock that reports timeout holds nothing; when no call is in flight Cc() is the number of holders and LockCount() the number of successful Locks.", "quantifier": "every interleaving, limit", "why_tests_cant": "schedules", "anchors": ["lock/lock.go:LimitLock"]}
{"id": "C62", "title": "Await delivers values to the right waiter, once", "statement": "In any interleaving, a Wait(idx) that returns without error returns either a value given to CloseAndPut(idx,...) or, if the channel it waits on was closed, the zero value; each CloseAndPut value is returned by at most one Wait; no CloseAndPut blocks while holding the lock.", "quantifier": "every interleaving of any number of goroutines and ids", "why_tests_cant": "schedules", "anchors": ["lock/await.go:Await"]}
{"id": "C63", "title": "Await does not lose a wakeup", "statement": "If a goroutine is waiting on idx when CloseAndPut(idx,v) starts, some waiter on idx receives v or times out; the put does not report success while leaving the waiter waiting.", "quantifier": "every interleaving", "why_tests_cant": "needs a specific race on id reuse", "anchors": ["lock/await.go:Await.Wait", "lock/await.go:Await.CloseAndPut"]}
{"id": "C64", "title": "FastAwait delivers values to the right waiter, once", "statement": "In any interleaving, a FastAwait.Wait(id) that returns without error returns either a value given to CloseAndPut(id,...) or, only if Close(id) has been called, the zero value; each CloseAndPut value is returned at most once.", "quantifier": "every interleaving", "why_tests_cant": "schedules", "anchors": ["lock/fastawait.go:FastAwait"]}
{"id": "C65", "title": "GoPool runs each task at most once", "statement": "In any interleaving, every started function was submitted by Go, and each submission is started at most once.", "quantifier": "every interleaving", "why_tests_cant": "schedules", "anchors": ["pool/gopool/gopool.go"]}
{"id": "C66", "title": "GoPool respects maxlimit", "statement": "In any interleaving at most maxlimit (or minlimit if larger) submitted functions run at the same time.", "quantifier": "every interleaving and limits", "why_tests_cant": "schedules", "anchors": ["pool/gopool/gopool.go:GoPool._funcn"]}
{"id": "C67", "title": "GoPool eventually runs every task", "statement": "Whenever the pool is quiescent, no submitted task is left unstarted.", "quantifier": "every interleaving", "why_tests_cant": "needs a specific race", "anchors": ["pool/gopool/gopool.go:GoPool.Go", "pool/gopool/gopool.go:GoPool.funcn"]}
{"id": "C68", "title": "GoPool.Close does not drop tasks", "statement": "After Close, every task accepted before is still started.", "quantifier": "every interleaving with Close", "why_tests_cant": "needs a specific race", "anchors": ["pool/gopool/gopool.go:GoPool.Close", "pool/gopool/gopool.go:funcn.run"]}
{"id": "C69", "title": "Cropping stays inside the image", "statement": "cropImage succeeds iff the requested rectangle lies in the image and then has exactly the requested size; cropImageBySide shifts the rectangle inside the image whenever it fits; cropImageByAnchor clips it.", "quantifier": "every image size and rectangle", "why_tests_cant": "all integers", "anchors": ["image/adjust.go:cropImage", "image/adjust.go:cropImageByAnchor", "image/adjust.go:cropImageBySide", "image/adjust.go:clamp"]}
{"id": "C70", "title": "Resizing never enlarges", "statement": "For every mode, image size and target size, the computed dimensions never exceed the original ones.", "quantifier": "every mode and all sizes", "why_tests_cant": "all integers", "anchors": ["image/image.go:praseMode", "image/image.go:getMinAndkeepRatio", "image/image.go:getMaxAndkeepRatio", "image/image.go:getSideByThubnail"]}
{"id": "C71", "title": "Image type detection", "statement": "imageType returns the type whose magic prefix the data has, is determined by the first 8 bytes, and returns \"\" on data shorter than 8 bytes.", "quantifier": "every byte slice", "why_tests_cant": "unbounded", "anchors": ["image/image.go:imageType"]}
{"id": "C72", "title": "Quality normalisation", "statement": "Whatever quality is passed, values above 10 are mapped into 1..10 and lower ones are kept.", "quantifier": "every integer", "why_tests_cant": "all integers", "anchors": ["image/image.go:Quality", "image/image.go:QualityByBinary"]}
{"id": "C73", "title": "WebSocket handler reports errors forever after close", "statement": "Once Close was called or the read loop failed, Error() is non-nil and Send fails without touching the connection, for ever.", "quantifier": "every interleaving of Send/Close/read", "why_tests_cant": "schedules", "anchors": ["websocket/wshandle.go:Handler"]}
{"id": "C74", "title": "WebSocket callbacks fire once", "statement": "OnOpen fires once before anything else and OnClose fires exactly once, after which no message is delivered.", "quantifier": "every interleaving", "why_tests_cant": "schedules", "anchors": ["websocket/wshandle.go:Handler.read", "websocket/wshandle.go:NewHandler"]}
{"id": "C75", "title": "WebSocket TLS policy", "statement": "A wss: URL verifies the server certificate iff certificate files or bytes are configured; other schemes than ws:/wss: are rejected.", "quantifier": "every configuration", "why_tests_cant": "all configurations", "anchors": ["websocket/wshandle.go:NewHandler"]}
{"id": "C76", "title": "Signal handler is one-shot", "statement": "ListenSignalEvent calls the handler at most once, with the first signal delivered.", "quantifier": "every sequence of signals", "why_tests_cant": "all sequences", "anchors": ["gosignal/gosignal.go:ListenSignalEvent"]}
{"id": "C77", "title": "LimitHashMap finds a value under any equal key", "statement": "For float64 keys, if a == b then a value put under a is found by Get(b).", "quantifier": "every pair of equal float64 keys", "why_tests_cant": "corner of the key space (signed zeros)", "anchors": ["hashmap/limithashmap.go:NewLimitHashMapWithSegment"]}
{"id": "C78", "title": "Ring points of different nodes never coincide", "statement": "No two different nodes share a ring point, for any replica indices.", "quantifier": "every pair of int64 ids and replica indices", "why_tests_cant": "2^128 pairs; the colliding ids are found only by solving a linear system over GF(2)", "anchors": ["hashmap/consistenthash.go:hash", "hashmap/consistenthash.go:Consistenthash.Add"]}
{"id": "C79", "title": "Small node ids never collide on the ring", "statement": "For node ids in [0, 2^48) and at most 65536 replicas, no two (replica, node) pairs have the same ring point; hence the placement depends only on the non-empty node set and every lookup answers a member.", "quantifier": "every pair of ids below 2^48, every replica count up to 65536, every history", "why_tests_cant": "2^128 pairs of points", "anchors": ["hashmap/consistenthash.go:hash", "hashmap/consistenthash.go:Consistenthash.Add", "hashmap/consistenthash.go:Consistenthash.Get"]}
{"id": "C80", "title": "AES-CBC is deterministic, injective and prefix preserving", "statement": "With the same iv and key, two ciphertexts are equal iff the plaintexts are, and plaintexts that agree on their first 16m bytes give ciphertexts that agree on their first 16m bytes (the iv is fixed per Aes value).", "quantifier": "every pair of plaintexts, every m, key and iv", "why_tests_cant": "unbounded plaintexts; tests cannot exclude collisions", "anchors": ["keystore/aes.go:Aes.EncrypterCbc", "keystore/aes.go:NewAes"]}
{"id": "C81", "title": "Decompression reports damaged input", "statement": "If a compressed stream is corrupt or truncated, UnZlib and UnGzip (packages compress and util) return a non-nil error.", "quantifier": "every input and every way the reader splits the data", "why_tests_cant": "unbounded damaged inputs", "anchors": ["compress/compress.go:UnZlib", "compress/compress.go:UnGzip", "util/compress.go:UnZlib", "util/compress.go:UnGzip"]}
{"id": "C82", "title": "KeyBean.Equals means equal contents", "statement": "p.Equals(q) is true exactly if the four maps of p and q have the same keys and values (a nil map counting as empty); in particular Equals is symmetric.", "quantifier": "every pair of beans", "why_tests_cant": "all pairs of maps; the failing pairs need different keys with zero values", "anchors": ["keystore/store.go:KeyBean.Equals", "keystore/store.go:UserBean.Equals"]}
{"id": "C83", "title": "Int64 form of UUIDs is unique in a process", "statement": "In any interleaving of concurrent NewUUID calls, Int64() (and hence Base58()) of any two of up to 2^62 generated UUIDs differ, whatever the hash function.", "quantifier": "every interleaving, every hash function", "why_tests_cant": "collisions need equal hash values or 2^60 calls", "anchors": ["uuid/uuid.go:UUID.Int64", "uuid/uuid.go:UUID.Base58", "uuid/uuid.go:NewUUID"]}
{"id": "C84", "title": "Slices returned by Buffer.Bytes stay valid", "statement": "The slice that Bytes() returned, or that NewBufferBySlice was given, keeps its contents whatever is later done with the buffer.", "quantifier": "every buffer, every capacity, every later history", "why_tests_cant": "depends on capacities and on aliasing of arrays over all histories", "anchors": ["buffer/buffer.go:Buffer.Bytes", "buffer/buffer.go:Buffer.Reset", "buffer/buffer.go:NewBufferBySlice"]}
{"id": "C85", "title": "Mmap AppendSync is durable when it returns", "statement": "When AppendSync or WriteAtSync has returned nil (Unix systems where msync is used), its data is on the disk and stays there, whatever other calls run concurrently and whatever the kernel writes back by itself, as long as no other call writes the same addresses.", "quantifier": "every interleaving, every page size, every writeback order", "why_tests_cant": "needs all schedules and all kernel writeback choices; tests do not crash the machine", "anchors": ["mmap/mmap.go:Mmap.AppendSync", "mmap/mmap.go:Mmap.WriteAtSync", "mmap/sync_unix.go:mmapSyncToDisk"]}
{"id": "C86", "title": "fastio keeps the order of calls that do not overlap", "statement": "If a Write or WriteSync had returned before another call of either was made, its data is in front of the other's in the file.", "quantifier": "every interleaving without I/O errors, any number of writers", "why_tests_cant": "queue and direct path can overtake each other only under specific schedules", "anchors": ["fastio/fw.go:mwriter.Write", "fastio/fw.go:mwriter.WriteSync", "fastio/fw.go:mwriter.ioWrite"]}
{"id": "C87", "title": "fastio does not deadlock", "statement": "A call of Write or WriteSync that has not returned can still return: no reachable state makes its return impossible.", "quantifier": "every interleaving, every queue capacity", "why_tests_cant": "needs the queue full at a specific moment (2^16 stranded writes)", "anchors": ["fastio/fw.go:mwriter.Write", "fastio/fw.go:mwriter.WriteSync"]}
{"id": "C88", "title": "fastio reports I/O errors", "statement": "A WriteSync that returns a nil error has its data in the file at the returned offset, whatever I/O errors happened; after an error other calls can go on.", "quantifier": "every interleaving, every choice of failing writes", "why_tests_cant": "needs I/O failures at chosen moments combined with schedules", "anchors": ["fastio/fw.go:mwriter.WriteSync", "fastio/fw.go:mwriter.Write", "fastio/fw.go:mwriter.ioWrite"]}
{"id": "C89", "title": "fastio does not keep the caller's slice", "statement": "Once Write or WriteSync has returned, the caller may reuse the slice: the file gets what the slice held during the call.", "quantifier": "every interleaving, every later content of the slice", "why_tests_cant": "only visible when the slice is changed while its data waits in the queue", "anchors": ["fastio/fw.go:mwriter.Write", "fastio/fw.go:mwriter.WriteSync"]}
{"id": "C90", "title": "Locks of different keys are independent", "statement": "A Lock(key) of Numlock or Strlock waits only if another call has, or waits for, the lock of the same key; a goroutine that holds one key can lock a different one.", "quantifier": "every interleaving, number of mutexes, hash function", "why_tests_cant": "the collisions depend on keys and on a randomly seeded hash", "anchors": ["lock/lock.go:Numlock.Lock", "lock/lock.go:Strlock.Lock"]}
{"id": "C91", "title": "LimitLock.Cc stays between 0 and the limit", "statement": "Whenever it is called, Cc returns a number between 0 and the limit.", "quantifier": "every interleaving of Lock, Unlock and Cc, every limit", "why_tests_cant": "needs a specific interleaving of the two counters", "anchors": ["lock/lock.go:LimitLock.Cc", "lock/lock.go:LimitLock.Lock", "lock/lock.go:LimitLock.Unlock"]}
{"id": "C92", "title": "Await.Wait returns the zero value with a nil error only after Close", "statement": "A Wait(idx) that returns the zero value of T and a nil error does so only if Close(idx) has been called.", "quantifier": "every interleaving", "why_tests_cant": "needs two waiters on one id and a timeout of one of them", "anchors": ["lock/await.go:Await.Wait", "lock/await.go:Await.Close"]}
{"id": "C93", "title": "Await.CloseAndPut returns nil exactly when its value is delivered", "statement": "A CloseAndPut(idx,v) that returns nil has given v to a Wait(idx), or v is in the channel of a waiting one; one that returns an error has not delivered v.", "quantifier": "every interleaving", "why_tests_cant": "needs a specific race with timeouts", "anchors": ["lock/await.go:Await.CloseAndPut", "lock/await.go:Await.Wait"]}
{"id": "C94", "title": "WaitWithCancel returns when its context is cancelled", "statement": "A WaitWithCancel of Await or FastAwait that is waiting returns with an error once its context is cancelled.", "quantifier": "every reachable state, every timeout", "why_tests_cant": "needs all timeouts, including zero", "anchors": ["lock/await.go:Await.WaitWithCancel", "lock/fastawait.go:FastAwait.WaitWithCancel"]}
{"id": "C95", "title": "FastAwait.CloseAndPut never blocks for ever", "statement": "A CloseAndPut in its channel send always goes on: the channel has room or is closed, or another CloseAndPut on the same channel is about to close it, which nothing can stop.", "quantifier": "every reachable state of every interleaving", "why_tests_cant": "absence of deadlock over all schedules", "anchors": ["lock/fastawait.go:FastAwait.CloseAndPut"]}
{"id": "C96", "title": "FastAwait does not lose a wakeup", "statement": "If a goroutine waits for id when CloseAndPut(id,v) starts, then once that call and all others of CloseAndPut(id) and Close(id) have returned, the goroutine is not left waiting on an empty open channel.", "quantifier": "every interleaving", "why_tests_cant": "needs a specific race on id reuse", "anchors": ["lock/fastawait.go:FastAwait.Wait", "lock/fastawait.go:FastAwait.CloseAndPut"]}
{"id": "C97", "title": "FastAwait.CloseAndPut waits for a late Wait", "statement": "A CloseAndPut(id,v) that finds no Wait(id) looks for one 31 times with 30 pauses of 100 ms before it gives up.", "quantifier": "every id, every interleaving with other calls", "why_tests_cant": "depends on the history of the id through the Bloom filter", "anchors": ["lock/fastawait.go:FastAwait.CloseAndPut", "lock/fastawait.go:FastAwait.isDel"]}
{"id": "C98", "title": "GoPool.Go does not block for ever", "statement": "Whenever the pool is quiescent (no goroutine of it can go on, no submitted function runs), every call of Go has returned.", "quantifier": "every interleaving, every minlimit, maxlimit and FuncLimit", "why_tests_cant": "needs a race at the dispatcher's unlock, or limits no test uses", "anchors": ["pool/gopool/gopool.go:GoPool.Go", "pool/gopool/gopool.go:GoPool.funcn"]}
{"id": "C99", "title": "A panic in a submitted function is contained", "statement": "A panic of a function given to Go never ends the process, and the worker that ran it goes on.", "quantifier": "every interleaving with Close and TurnOff", "why_tests_cant": "needs a panic between two statements of Close", "anchors": ["pool/gopool/gopool.go:funcn.run", "pool/gopool/gopool.go:GoPool.put"]}
{"id": "C100", "title": "GoPool.Go does not panic", "statement": "No call of Go panics, whatever calls of Close run at the same time.", "quantifier": "every interleaving with Close", "why_tests_cant": "needs a Go that is delayed by ten seconds", "anchors": ["pool/gopool/gopool.go:GoPool.Go", "pool/gopool/gopool.go:GoPool.Close"]}
{"id": "C101", "title": "GoPool.NumUnExecu counts the functions not yet executed", "statement": "NumUnExecu is never negative, and when the pool is quiescent it is the number of accepted functions that have not begun.", "quantifier": "every interleaving", "why_tests_cant": "schedules", "anchors": ["pool/gopool/gopool.go:GoPool.NumUnExecu", "pool/gopool/gopool.go:GoPool._funcn"]}
{"id": "C102", "title": "GoPool workers return to the pool without blocking", "statement": "In a pool that is neither closed nor turned off, a worker that returns always finds room in the pool, the hand-over of a function to a worker never blocks, and the dispatcher never gets a nil worker.", "quantifier": "every interleaving, every limits", "why_tests_cant": "schedules", "anchors": ["pool/gopool/gopool.go:GoPool.put", "pool/gopool/gopool.go:funcn.add"]}
{"id": "C103", "title": "After Close the dispatcher ends", "statement": "When the queue has been closed and is empty, the dispatcher goroutine ends after finitely many steps.", "quantifier": "every interleaving with Close", "why_tests_cant": "needs a race with Close and ten seconds", "anchors": ["pool/gopool/gopool.go:GoPool._funcn", "pool/gopool/gopool.go:GoPool.Close"]}
{"id": "C104", "title": "Mode0 fits the image into the box", "statement": "Resizing with Mode0 and two positive bounds gives an image whose long side is at most the first and whose short side is at most the second bound.", "quantifier": "all image sizes and bounds", "why_tests_cant": "all integers", "anchors": ["image/image.go:praseMode", "image/image.go:newSide4mode", "image/image.go:getMinAndkeepRatio"]}
{"id": "C105", "title": "Scaling modes keep the aspect ratio", "statement": "In modes 0, 2, 3 and 4 the new size differs from the aspect ratio of the image by at most one pixel on one of its sides: |a*h - b*w| <= max(w,h).", "quantifier": "all image sizes up to 2^25 and requests, rounding of float64 included", "why_tests_cant": "all integers; rounding errors of rare quotients", "anchors": ["image/image.go:praseMode", "image/image.go:getMinAndkeepRatio", "image/image.go:getMaxAndkeepRatio"]}
{"id": "C106", "title": "An exact fraction of the size is met exactly", "statement": "Asking Mode0 for exactly 1/k of both sides of an image gives exactly that size.", "quantifier": "all sizes and k", "why_tests_cant": "only some quotients are rounded down", "anchors": ["image/image.go:getMinAndkeepRatio"]}
{"id": "C107", "title": "ScaleLower fits into the box, ScaleUpper covers it", "statement": "Without a limit, Options.ScaleLower gives an image within the box and Options.ScaleUpper one that covers it.", "quantifier": "all image sizes and boxes", "why_tests_cant": "only some quotients are rounded down", "anchors": ["image/adjust.go:scaleImageWithRatio"]}
{"id": "C108", "title": "The pixel limit is respected", "statement": "With a third number in ScaleUpper or ScaleLower the result has at most that many pixels.", "quantifier": "all image sizes, boxes and limits", "why_tests_cant": "all integers and square roots", "anchors": ["image/adjust.go:scaleImageWithRatio", "image/adjust.go:scaleDownToLimit"]}
{"id": "C109", "title": "Thumbnails of icons", "statement": "With Format \"ico\", thumbnails are made of exactly those of the sizes 16, 32, 48, 64, 128 that are smaller than both sides of the image.", "quantifier": "all image sizes", "why_tests_cant": "all integers", "anchors": ["image/image.go:convertImageFormat"]}
{"id": "C110", "title": "Frames of a resized GIF lie in its canvas", "statement": "ResizeGIF produces frames that lie in the declared canvas, and never enlarges.", "quantifier": "all frame rectangles and targets", "why_tests_cant": "needs thin GIFs; the encoder's error is dropped", "anchors": ["image/image.go:resizeGIF", "image/image.go:ResizeGIF"]}
{"id": "C111", "title": "Encode returns the format asked for", "statement": "With Options.Format set, data that can be decoded comes back in that format.", "quantifier": "all data, formats and library results", "why_tests_cant": "depends on what the codecs support", "anchors": ["image/image.go:Image.Encode", "image/image.go:convertImageFormat"]}
{"id": "C112", "title": "Types of real files", "statement": "Files in AVIF format are recognised as avif, and what is reported as webp is a WebP file.", "quantifier": "all files", "why_tests_cant": "all files", "anchors": ["image/image.go:imageType"]}
{"id": "C113", "title": "A higher quality gives a higher quality", "statement": "For qualities of at least 1, a larger number never gives the encoder a lower quality setting.", "quantifier": "all integers and types", "why_tests_cant": "all integers", "anchors": ["image/image.go:Quality"]}
{"id": "C114", "title": "Resizing never makes an image empty", "statement": "For requests that are not negative every mode gives an image of at least one pixel by one pixel.", "quantifier": "all modes, sizes and requests", "why_tests_cant": "needs extreme aspect ratios", "anchors": ["image/image.go:praseMode", "image/image.go:getMinAndkeepRatio", "image/image.go:getMaxAndkeepRatio", "image/image.go:getSideByThubnail"]}
{"id": "C115", "title": "Mode2 with one side given", "statement": "Mode2 with only a width, or only a height, gives an image with that side, if the original is at least that large.", "quantifier": "all image sizes and requests", "why_tests_cant": "only some quotients are rounded down or cut to zero", "anchors": ["image/image.go:praseMode", "image/image.go:getMaxAndkeepRatio"]}
{"id": "C116", "title": "Messages are delivered once and in order", "statement": "OnMessage is given every message received from the connection exactly once, in the order received.", "quantifier": "every interleaving of reading, callbacks, Send and Close", "why_tests_cant": "schedules", "anchors": ["websocket/wshandle.go:Handler.read"]}
{"id": "C117", "title": "OnError is given an error", "statement": "OnError is called at most once, and with a non-nil error.", "quantifier": "every interleaving", "why_tests_cant": "needs a Close at the moment a message is handled", "anchors": ["websocket/wshandle.go:Handler.read", "websocket/wshandle.go:Handler.Close"]}
{"id": "C118", "title": "Closing comes to an end", "statement": "After Close, when nothing can go on, the reader has ended, OnError and OnClose were each called exactly once, every message received was delivered and every Send has returned.", "quantifier": "every interleaving", "why_tests_cant": "schedules; absence of stuck goroutines", "anchors": ["websocket/wshandle.go:Handler.read", "websocket/wshandle.go:Handler.Close", "websocket/wshandle.go:Handler.Send"]}
{"id": "C119", "title": "Concurrent Sends do not mix on the connection", "statement": "Two Sends never use the connection at the same time, and none waits for ever.", "quantifier": "every interleaving", "why_tests_cant": "schedules", "anchors": ["websocket/wshandle.go:Handler.sendws"]}
{"id": "C120", "title": "Signals listened for are swallowed for ever", "statement": "From a call of ListenSignalEvent on, its signals never have their default action again, also after the function was called, and the function is not called again.", "quantifier": "every sequence of signals, calls and steps", "why_tests_cant": "all sequences", "anchors": ["gosignal/gosignal.go:ListenSignalEvent"]}
{"id": "C121", "title": "RSA round trip", "statement": "A message of at most k-11 bytes (k the length of the modulus) encrypted by RsaEncryptByBytes with the public key of a pair gives k bytes and no error, and RsaDecryptByBytes with the private key gives exactly the message back.", "quantifier": "all key pairs over two different odd primes, all messages that fit, all random paddings", "why_tests_cant": "the padding is random and the key space is infinite; a test sees one key and one padding", "anchors": ["keystore/key.go: RsaEncryptByBytes, RsaDecryptByBytes"]}
{"id": "C122", "title": "RSA failures are reported", "statement": "If RsaEncryptByBytes or RsaDecryptByBytes returns a nil error, it returned a result.", "quantifier": "all keys, messages and ciphertexts", "why_tests_cant": "depends on every way key material can be malformed", "anchors": ["keystore/key.go: RsaEncryptByBytes, RsaDecryptByBytes, _recovr"]}
{"id": "C123", "title": "RSA decryption accepts exactly encryptions", "statement": "RsaDecryptByBytes returns a message if and only if the ciphertext is an encryption of that message with some padding, as a number: leading zeros do not matter as long as the ciphertext fits the 64-bit words of the modulus; everything else is a decryption error.", "quantifier": "all ciphertexts of any length, all key pairs", "why_tests_cant": "the set of ciphertexts cannot be enumerated", "anchors": ["keystore/key.go: RsaDecryptByBytes"]}
{"id": "C124", "title": "RSA message limit and injectivity", "statement": "With an accepted key RsaEncryptByBytes fails exactly for messages longer than k-11 bytes, with an error and no ciphertext; equal ciphertexts mean equal messages.", "quantifier": "all key pairs, messages and paddings", "why_tests_cant": "injectivity is a statement about pairs of messages and paddings", "anchors": ["keystore/key.go: RsaEncryptByBytes"]}
{"id": "C125", "title": "RSA uses the embedded key only for the empty path", "statement": "RsaEncrypt and RsaDecrypt use the key in the named file; a missing or unreadable file is an error. The embedded pair is used exactly for the empty path, and then everybody with the source can decrypt.", "quantifier": "all paths, file systems and messages", "why_tests_cant": "quantifies over file system states", "anchors": ["keystore/key.go: RsaEncrypt, RsaDecrypt, defaultPubKey, defaultPriKey"]}
{"id": "C126", "title": "CRC32 detects bursts of up to 32 bits and nearby two-bit errors", "statement": "Two different messages of the same length whose difference lies within 32 consecutive bits have different CRC32 values. Two flipped bits are hidden exactly when their distance is a multiple of 2^32-1 bits.", "quantifier": "all messages of any length, all positions, all burst patterns", "why_tests_cant": "quantifies over all messages and error positions; the two-bit bound is at half a gigabyte", "anchors": ["util/encode.go: CRC32"]}
{"id": "C127", "title": "CRC64 detects bursts of up to 64 bits, odd numbers of flipped bits and nearby two-bit errors", "statement": "Two different messages of the same length whose difference lies within 64 consecutive bits, or consists of an odd number of bits, have different CRC64 values. Two flipped bits are hidden exactly when their distance is a multiple of 2*(2^15-1)*(2^17-1) bits.", "quantifier": "all messages of any length, all positions, all error patterns", "why_tests_cant": "quantifies over all messages and error patterns; the first hidden two-bit error needs a gigabyte", "anchors": ["util/encode.go: CRC64"]}
{"id": "C128", "title": "FNV hashes detect any change of two neighbouring bytes", "statement": "Messages that differ only within one byte or two neighbouring bytes have different FNVHash32 and different FNVHash64 values.", "quantifier": "all messages, positions and pairs of byte values", "why_tests_cant": "quantifies over all messages of any length", "anchors": ["util/encode.go: FNVHash32, FNVHash64"]}
{"id": "C129", "title": "The AES helpers use the standard format", "statement": "EncrypterCbc output is AES-256-CBC with PKCS#7 padding under key SHA-256(key) and iv MD5(iv), so any other implementation can decrypt it; DecrypterCbc decrypts every ciphertext in that format.", "quantifier": "all ivs, keys, messages, slices and heaps", "why_tests_cant": "quantifies over all messages and over ciphertexts made elsewhere", "anchors": ["keystore/aes.go: NewAes, EncrypterCbc, DecrypterCbc"]}
{"id": "C130", "title": "AES ciphertexts can be altered purposefully without the key", "statement": "Combining ciphertext block i with a mask makes DecrypterCbc return, without error, a message of the same length with exactly the masked bits of block i+1 flipped; otherwise only block i differs. There is no integrity protection.", "quantifier": "all messages with blocks i and i+1 full, all masks, all keys and ivs", "why_tests_cant": "quantifies over all messages, keys and masks", "anchors": ["keystore/aes.go: EncrypterCbc, DecrypterCbc"]}
{"id": "C131", "title": "When the data of a returned fastio Write stays in the queue", "statement": "If a Write has returned and its data is neither in the file nor being written by a call in ioWrite's loop, then during that Write another call was between taking the last element from the queue and setting ioend to true. Outside this window nothing is left behind.", "quantifier": "all interleavings of any number of Write and WriteSync calls without I/O errors", "why_tests_cant": "depends on a race window of a few instructions", "anchors": ["fastio/fw.go: Write, WriteSync, ioWrite"]}
{"id": "C132", "title": "RandUint stays below its argument and is unbiased", "statement": "RandUint(i) panics exactly for i = 0 and i >= 2^63; otherwise the result is below i, and the same number of generator draws leads to each result.", "quantifier": "all i, all UUID seeds, all generators with 63-bit output", "why_tests_cant": "uniformity over 2^63 draws cannot be enumerated", "anchors": ["util/encode.go: RandUint"]}
{"id": "C133", "title": "RandUint cannot return every value", "statement": "For i >= 2^31-1 some values below i are never returned by RandUint(i), whatever the UUIDs: math/rand reduces the seed modulo 2^31-1, so at most 2^31-2 different results exist for each i.", "quantifier": "all i from 2^31-1 to 2^63-1, all generators, all seeds", "why_tests_cant": "that a value never occurs cannot be observed", "anchors": ["util/encode.go: RandUint"]}
{"id": "C134", "title": "RandInt64Strict returns an unbiased number below its argument", "statement": "RandInt64Strict(i) panics (rather than returning an error) exactly for i <= 0; otherwise it returns a number from 0 to i-1 or, if the random source fails, 0 and an error. The same number of random byte strings leads to each result.", "quantifier": "all i, all contents and failures of the random source", "why_tests_cant": "uniformity over all byte strings; failures of the source", "anchors": ["util/encode.go: RandInt64Strict"]}
{"id": "C135", "title": "WriteAt of a fastio handle puts its data at the given offset", "statement": "WriteAt(b, off) with off >= 0 on an open handle, however the handle was made, returns len(b) and no error, and afterwards b is in the file at off, all other bytes are unchanged, and a gap after the old end is zero.", "quantifier": "all initial contents, all sequences of calls on any number of handles, all slices and offsets", "why_tests_cant": "Go refuses WriteAt on every file opened with O_APPEND, so whether the call can work depends on how the handle was made; a test on one kind of handle says nothing about the other.", "anchors": ["fastio/file.go: Open", "fastio/file.go: New", "fastio/util.go: offset", "fastio/file.go: fileHandle.WriteAt"]}
{"id": "C136", "title": "Read of a fastio handle delivers the contents of the file", "statement": "The first Read on a handle just made by Open delivers the beginning of the file; more generally what Read delivers is determined by what is in the file.", "quantifier": "all initial contents, all sequences of calls on any number of handles, all slice lengths", "why_tests_cant": "New moves the shared position to the end and every append moves it again, so what Read delivers depends on the whole history of all handles.", "anchors": ["fastio/file.go: Open", "fastio/file.go: New", "fastio/util.go: offset", "fastio/file.go: fileHandle.Read"]}
{"id": "C137", "title": "WriteSync returns the right offset when the file is open through several handles", "statement": "The offset returned by a successful WriteSync is where its data is in the file, also if other handles on the same file write.", "quantifier": "all initial contents, all numbers of handles, all sequences of calls", "why_tests_cant": "The handle counts bytes for itself; the difference to the real offset is the sum of what all others wrote since it was opened, over histories of any length.", "anchors": ["fastio/file.go: Open", "fastio/file.go: New", "fastio/util.go: offset", "fastio/file.go: fileHandle.WriteSync", "fastio/fw.go: mwriter.WriteSync"]}
{"id": "C138", "title": "What WriteSync wrote is read back by ReadAt for ever", "statement": "If one handle made by Open is the only one to write, then after WriteSync(b) returned off without error, ReadAt with a slice of len(b) at off, through any open handle and after any further calls, delivers b; past the end it delivers what there is and io.EOF.", "quantifier": "all initial contents, all sequences of calls before and after (also of other handles, also with writes of others after the WriteSync), all data", "why_tests_cant": "The statement is about all later times and all ways of using the file in between.", "anchors": ["fastio/file.go: Open", "fastio/file.go: New", "fastio/util.go: offset", "fastio/file.go: fileHandle.WriteSync", "fastio/file.go: fileHandle.ReadAt"]}
{"id": "C139", "title": "A closed fastio handle does nothing", "statement": "After Close, whatever other handles do, no call on this handle changes the file or delivers bytes, and Write, WriteSync, Read and Close return an error.", "quantifier": "all histories before and after Close, all calls", "why_tests_cant": "It has to hold at every later time and for every call; the code never looks at its own flag isClose.", "anchors": ["fastio/file.go: Open", "fastio/file.go: New", "fastio/util.go: offset", "fastio/file.go: fileHandle.Close"]}
{"id": "C140", "title": "WriteSync and Write append also on a file opened without O_APPEND", "statement": "If a file is used through one handle made by New without O_APPEND, WriteSync returns where its data is, and everything written before is still there.", "quantifier": "all initial contents, all sequences of calls on the handle", "why_tests_cant": "Position, counter and size agree only as long as no call moves one of them alone; that depends on the order of WriteAt and Read calls.", "anchors": ["fastio/file.go: Open", "fastio/file.go: New", "fastio/util.go: offset", "fastio/fw.go: mwriter.WriteSync", "fastio/file.go: fileHandle.WriteAt", "fastio/file.go: fileHandle.Read"]}
{"id": "C141", "title": "A failed NewMMAP leaves nothing behind", "statement": "If NewMMAP returns an error, the file is not mapped into memory.", "quantifier": "all file contents and start offsets", "why_tests_cant": "A mapping that was made and forgotten has no visible effect in a test; it shows only as memory that is never given back.", "anchors": ["mmap/mmap.go: NewMMAP"]}
{"id": "C142", "title": "Closing a mapped file is safe whatever calls are running", "statement": "In every interleaving of Append, AppendSync, WriteAt, WriteAtSync, Flush, Unmap and Close, no call panics and the process is not killed.", "quantifier": "all executions with any number of goroutines, all moments of unmapping", "why_tests_cant": "The copy happens outside the lock and Unmap takes none; the fatal order is a window of nanoseconds.", "anchors": ["mmap/mmap.go: Mmap.Close", "mmap/mmap.go: Mmap.Unmap", "mmap/mmap.go: Mmap.Append", "mmap/mmap.go: Mmap.WriteAt"]}
{"id": "C143", "title": "What returned before Close is on the disk afterwards", "statement": "The data of every Append, AppendSync, WriteAt or WriteAtSync that returned before Close (its Flush) is on the disk from then on, whatever runs concurrently or later, unless another call wrote to an overlapping region.", "quantifier": "all executions, all calls, all later times", "why_tests_cant": "Whether a byte is on the disk cannot be seen through the mapping, and the kernel writes back at its own pace.", "anchors": ["mmap/mmap.go: Mmap.Close", "mmap/mmap.go: Mmap.Flush", "mmap/mmap.go: Mmap.Unmap", "mmap/mmap.go: Mmap.UnmapAndCloseFile"]}
{"id": "C144", "title": "AppendSync and WriteAtSync are durable on Solaris", "statement": "On Solaris as elsewhere, the data of a Sync call alone in its region is on the disk when the call returns.", "quantifier": "all executions, all calls", "why_tests_cant": "Needs a crash of the system to be seen.", "anchors": ["mmap/sync_solaris.go: mmapSyncToDisk", "mmap/mmap.go: Mmap.AppendSync"]}
{"id": "C145", "title": "StrToTimeFormat takes dates of the layout only", "statement": "StrToTimeFormat returns no error for a string s exactly if s is a date of the calendar and a time of day written 2006-01-02 15:04:05; no other way of writing is taken, and no string has two meanings.", "quantifier": "all byte strings, all time zones", "why_tests_cant": "The strings the library takes beyond the layout are not documented in one place, and the set of all strings cannot be tried.", "anchors": ["util/encode.go: StrToTimeFormat"]}
{"id": "C146", "title": "StrToTimeFormat does not panic", "statement": "For every string StrToTimeFormat returns; a wrong string gives an error.", "quantifier": "all byte strings, with and without a time zone database on the computer", "why_tests_cant": "The test machine has a time zone database; the machine of the user may have none.", "anchors": ["util/encode.go: StrToTimeFormat"]}
{"id": "C147", "title": "The time returned by StrToTimeFormat reads as the string", "statement": "At the moment returned, clocks in Shanghai show the date and time written in the string.", "quantifier": "all dates from year 0 to 9999 and all times of day", "why_tests_cant": "Only a few hours in a century of offsets are special, and 300 billion seconds cannot be tried.", "anchors": ["util/encode.go: StrToTimeFormat"]}
{"id": "C148", "title": "StrToTimeFormat keeps the order", "statement": "Of two strings 2006-01-02 15:04:05 the one that is later in the order of strings gives the later time.", "quantifier": "all pairs of dates", "why_tests_cant": "Pairs of times on both sides of a change of offset are not in a sample by chance.", "anchors": ["util/encode.go: StrToTimeFormat"]}
{"id": "C149", "title": "Post sends data over TLS only to servers with a valid certificate", "statement": "Every request that Post3 (Post, Post2) sends over TLS, redirects included, goes to a server whose certificate is valid.", "quantifier": "all URLs, all servers, all chains of redirects", "why_tests_cant": "Needs servers with invalid certificates behind every kind of URL and redirect.", "anchors": ["httpclient/post.go: Post3"]}
{"id": "C150", "title": "Without error Post returns the answer of a server that succeeded", "statement": "If Post3 returns without error, the result is the whole body of the last response, and its status is 2xx.", "quantifier": "all servers, all chains of redirects, all failures while reading", "why_tests_cant": "The servers of a test give the answers the author thought of.", "anchors": ["httpclient/post.go: Post3"]}
{"id": "C151", "title": "The server gets the headers of the map", "statement": "The first request has exactly the entries of the map header, and the cookie.", "quantifier": "all maps, all orders of iteration over them", "why_tests_cant": "Go ranges over a map in random order, so a test that passes once says little; the maps are unlimited.", "anchors": ["httpclient/post.go: Post3"]}
{"id": "C152", "title": "Headers cannot be smuggled in", "statement": "No request goes out with a line break or zero byte in the name or value of a header, or a colon or space in a name, whatever the map header has.", "quantifier": "all maps, all redirects", "why_tests_cant": "All places of all bytes in names and values cannot be tried.", "anchors": ["httpclient/post.go: Post3"]}
{"id": "C153", "title": "The server that answers got the data", "statement": "If Post3 returns without error, the request that was answered was a POST with the data bs; and every POST sent has exactly bs.", "quantifier": "all servers, all chains of redirects", "why_tests_cant": "Redirects are chosen by servers; chains of mixed codes are many.", "anchors": ["httpclient/post.go: Post", "httpclient/post.go: Post2", "httpclient/post.go: Post3"]}
{"id": "C154", "title": "Post returns", "statement": "Post3 returns whatever servers do, after a bounded number of requests.", "quantifier": "all servers", "why_tests_cant": "Not returning cannot be observed in finite time.", "anchors": ["httpclient/post.go: Post", "httpclient/post.go: Post2", "httpclient/post.go: Post3"]}
{"id": "C155", "title": "Post leaves no response open", "statement": "When Post3 returns, by whatever way, the body of every response is closed.", "quantifier": "all servers, all ways to fail", "why_tests_cant": "A body left open is a connection never given back, which no result shows.", "anchors": ["httpclient/post.go: Post3"]}
{"id": "C156", "title": "LimitMap is linearizable", "statement": "Every concurrent history of Put, Get, Del, RemoveMulti and Len on one LimitMap is explained by one order of the calls that respects time (a call that returned before another began comes first), in which the sequential map bounded by evicting the oldest gives the same results; when nobody is inside, the container is what the sequential one is after these calls.", "quantifier": "all numbers of goroutines, all interleavings of the statements of the methods, all calls, all limits, histories with pending calls included", "why_tests_cant": "A test runs a few interleavings of the scheduler's choosing; the histories are unlimited, and one lost update in millions suffices to be wrong.", "anchors": ["hashmap/limitmap.go: LimitMap"]}
{"id": "C157", "title": "LruCache is linearizable", "statement": "Every concurrent history on one LruCache is explained by one order of the calls that respects time, in which the sequential least-recently-used cache gives the same results.", "quantifier": "all numbers of goroutines, all interleavings, all calls, all limits", "why_tests_cant": "A test runs a few interleavings of the scheduler's choosing; the histories are unlimited, and one lost update in millions suffices to be wrong.", "anchors": ["cache/lrucache.go: LruCache"]}
{"id": "C158", "title": "TreeMap is linearizable, iterations included", "statement": "Every concurrent history on one TreeMap is explained by one order of the calls that respects time, in which Put, Get and Del answer as a partial function does and every Ascend and Descend calls back with the entries of one moment, in the order of keys.", "quantifier": "all numbers of goroutines, all interleavings (other calls between the callbacks of an iteration too), all calls", "why_tests_cant": "A test runs a few interleavings of the scheduler's choosing; the histories are unlimited, and one lost update in millions suffices to be wrong.", "anchors": ["hashmap/treemap.go: TreeMap"]}
{"id": "C159", "title": "Consistenthash is linearizable", "statement": "Every concurrent history on one Consistenthash is explained by one order of the calls that respects time, in which every lookup is answered by the whole ring after the Adds and Dels before it; no lookup sees a ring with some replicas of a node.", "quantifier": "all numbers of goroutines, all interleavings, all hash functions, all numbers of replicas", "why_tests_cant": "A test runs a few interleavings of the scheduler's choosing; the histories are unlimited, and one lost update in millions suffices to be wrong.", "anchors": ["hashmap/consistenthash.go: Consistenthash"]}
{"id": "C160", "title": "LimitHashMap is linearizable", "statement": "Every concurrent history on one LimitHashMap is explained by one order of the calls that respects time, in which the segments, each bounded by evicting the oldest insertion, give the same results; what Len returns was the number of entries at some moment.", "quantifier": "all numbers of goroutines and segments, all interleavings, all hash functions, all limits", "why_tests_cant": "A test runs a few interleavings of the scheduler's choosing; the histories are unlimited, and one lost update in millions suffices to be wrong.", "anchors": ["hashmap/limithashmap.go: LimitHashMap"]}
{"id": "C161", "title": "LinkedHashMap is linearizable", "statement": "Every concurrent history on one LinkedHashMap is explained by one order of the calls that respects time, in which the sequential map bounded by evicting the oldest entry gives the same results; whenever nobody is inside a method that locks, the map has at most limit entries, Len says how many and Get finds exactly these.", "quantifier": "all numbers of goroutines, all interleavings of the statements under the mutex with Gets, which take none; all calls but iterators, all limits", "why_tests_cant": "Get runs between any two statements of Put, Delete and Clear; a test cannot place it there.", "anchors": ["hashmap/linkedhashmap.go: LinkedHashMap.Get", "hashmap/linkedhashmap.go: LinkedHashMap.Put", "hashmap/linkedhashmap.go: LinkedHashMap.Clear"]}
{"id": "C162", "title": "Iterators of LinkedHashMap while the map changes", "statement": "What an iterator of a LinkedHashMap returns while other calls change the map: Next returns only entries that are in the map at that moment, each once, and ends when all entries are passed. This is false (a deleted entry that was due is still returned and ends the iteration, Clear leaves the iterator with all old entries, moving the due entry to the front makes the iteration endless). What holds: the results of every history of calls, iterators and Nexts are those of a small cursor specification; and as long as no call stores, deletes or pushes out the entry that is due and none is Clear or MoveToFront, an iteration that reports the end has returned every entry that stayed.", "quantifier": "for all key and value types, limits, histories of calls, numbers and directions of iterators, and interleavings of Next with calls", "why_tests_cant": "the outcome depends on which entry is due when a call is made, on stale pointers of removed list elements, and on histories of any length; tests fix a few interleavings", "anchors": ["hashmap/linkedhashmap.go: LinkedHashMapIterator.Next, LinkedHashMap.Iterator, Put, LoadOrStore, Delete, Clear, MoveToFront"]}
{"id": "C163", "title": "TreeMap over the real B-tree, for every degree", "statement": "NewTreeMap(degree) panics exactly for degree below 2. For every degree of at least 2 no history of Put, Get and Del panics, every call answers as a partial function does, and Ascend and Descend show exactly the present entries in strictly increasing and decreasing key order until the callback returns false; the degree has no visible effect. The B-tree under the map stays balanced: with root height h it holds at least 2*degree^h - 1 entries.", "quantifier": "for all linearly ordered key types, value types, degrees, histories of calls, callbacks", "why_tests_cant": "splitting, stealing and merging of nodes depend on degree, order of insertion and deletion; a test reaches a few shapes of a tree", "anchors": ["hashmap/treemap.go: NewTreeMap, Put, Get, Del, Ascend, Descend, treeItem.Less"]}
{"id": "C164", "title": "TreeMap with NaN keys", "statement": "TreeMap accepts every cmp.Ordered key type, float64 included. A Put should not change what Get of another key answers. This is false for NaN: in any map that is not empty and has ordinary keys, of any degree and after any history, Get(NaN) finds the value of another key, Put(NaN, v) reports the value of another key as replaced and that key is lost (NaN takes its place in the order), and Del(NaN) deletes another key. Without NaN keys the map answers as a partial function does and iterates in order.", "quantifier": "for all degrees of at least 2, all histories with floating-point keys, all values", "why_tests_cant": "which entry is lost depends on the shape of the tree, so on the whole history and the degree; unit tests do not use NaN keys", "anchors": ["hashmap/treemap.go: treeItem.Less, Put, Get, Del"]}
{"id": "C165", "title": "No data races in the containers with a mutex", "statement": "LimitMap, LruCache, TreeMap (Ascend and Descend included, with callbacks that do not use the map), Consistenthash, LimitHashMap and the credential store have no data races in the sense of the Go memory model: whatever methods are called by whatever goroutines, two accesses to the same field or structure of which one is a write are ordered by happens-before.", "quantifier": "for all numbers of goroutines, all sequences of calls they make and all interleavings of their memory accesses", "why_tests_cant": "the race detector reports only races of the executions it sees; freedom from races is a statement about all interleavings", "anchors": ["hashmap/limitmap.go: all methods", "cache/lrucache.go: all methods", "hashmap/treemap.go: all methods", "hashmap/consistenthash.go: all methods", "hashmap/limithashmap.go: all methods", "keystore/keystore.go: all methods"]}
{"id": "C166", "title": "No data races in LinkedHashMap", "statement": "All methods of LinkedHashMap can be called concurrently without a data race. This is false: Get reads the pointer t.m without the mutex while Clear replaces it. That is the only race: Get, which takes no mutex, reads elements and entries only after the Put that made them, and without Clear, or without Get, there is no race at all.", "quantifier": "for all numbers of goroutines, all sequences of calls they make and all interleavings of their memory accesses", "why_tests_cant": "the race detector reports only races of the executions it sees; freedom from races is a statement about all interleavings", "anchors": ["hashmap/linkedhashmap.go: all methods, LinkedHashMapIterator.Next"]}
{"id": "C167", "title": "No data races on the counters of MapL and LimitLock", "statement": "All methods of MapL and LimitLock can be called concurrently without a data race. This is false: MapL.Len and LimitLock.Cc read plainly what other calls change atomically. Without Len, MapL has no race; without Cc, LimitLock has none, LockCount included.", "quantifier": "for all numbers of goroutines, all sequences of calls they make and all interleavings of their memory accesses", "why_tests_cant": "the race detector reports only races of the executions it sees; freedom from races is a statement about all interleavings", "anchors": ["hashmap/map.go: MapL.Put, Get, Has, Del, Range, Len", "lock/lock.go: LimitLock.Lock, Unlock, Cc, LockCount"]}
{"id": "C168", "title": "No data races in the Bloom filter", "statement": "Add and Contains of one BloomFilter can be called concurrently without a data race. This is false: two Adds race on the words of the bit array (and may lose a bit), so do an Add and a Contains, and the slice of a segment is tested outside the mutex when the filter changes to the next segment. Only the count of items is safe.", "quantifier": "for all numbers of goroutines, all sequences of calls they make and all interleavings of their memory accesses", "why_tests_cant": "the race detector reports only races of the executions it sees; freedom from races is a statement about all interleavings", "anchors": ["cache/bloom.go: Add, Contains, setBit, testBit, getBitIndex"]}
{"id": "C169", "title": "No data races in the WebSocket handler", "statement": "Send, Error and Close of a handler can be called concurrently, while the handler reads, without a data race. This is false: the field err is read and written without synchronisation, by Send against Close and by Send against the handler's own reading goroutine. The connection itself is safe: all sends are ordered by the mutex.", "quantifier": "for all numbers of goroutines, all sequences of calls they make and all interleavings of their memory accesses", "why_tests_cant": "the race detector reports only races of the executions it sees; freedom from races is a statement about all interleavings", "anchors": ["websocket/wshandle.go: Handler.Send, sendws, Close, Error, read"]}
{"id": "C170", "title": "No data races in GoPool", "statement": "The methods of a GoPool can be called concurrently without a data race. This is false even if only Go is called: the dispatcher reads tnum plainly while Go adds to it. NumUnExecu races with Go, Close and TurnOff race with Go on the flag close. All other fields are safe.", "quantifier": "for all numbers of goroutines, all sequences of calls they make and all interleavings of their memory accesses", "why_tests_cant": "the race detector reports only races of the executions it sees; freedom from races is a statement about all interleavings", "anchors": ["pool/gopool/gopool.go: Go, NumUnExecu, Close, TurnOff, funcn, _funcn, put, funcn.run"]}
{"id": "C171", "title": "Calls of the containers with a mutex return", "statement": "Finitely many calls of the methods of a LimitMap, LruCache, TreeMap (with callbacks that do not use the map), Consistenthash, LimitHashMap, LinkedHashMap with its iterators, or credential store, made by any number of goroutines, all return: there is no deadlock, also when a call panics half-way where the unlocking is deferred, and the number of steps is bounded by twice the number of actions of the calls, whatever the scheduler does. The mutexes are Go's: a writer that waits keeps new readers out.", "quantifier": "for all numbers of goroutines, all sequences of calls they make, all branches the calls take and all schedules, fair or not", "why_tests_cant": "a test that does not hang has seen a few schedules; that no schedule leads to a deadlock is a statement about all of them", "anchors": ["hashmap/limitmap.go: LimitMap", "hashmap/treemap.go: TreeMap", "hashmap/consistenthash.go: Consistenthash", "hashmap/linkedhashmap.go: LinkedHashMap", "hashmap/limithashmap.go: LimitHashMap", "cache/lrucache.go: LruCache", "keystore/keystore.go: StoreAdmin"]}
{"id": "C172", "title": "Callbacks of Ascend and Descend can use the TreeMap", "statement": "A callback of Ascend or Descend can call the methods of the map it iterates over, and all calls return. This is false: a callback that calls Put or Del never returns, in any schedule and whatever other goroutines do; a callback that only calls Get can deadlock with a Put of another goroutine that arrives in between, and then every later call of anyone blocks. While nobody puts or deletes, callbacks may call Get, Ascend and Descend to any depth.", "quantifier": "for all numbers of goroutines, all sequences of calls they make, all branches the calls take and all schedules, fair or not", "why_tests_cant": "a test that does not hang has seen a few schedules; that no schedule leads to a deadlock is a statement about all of them", "anchors": ["hashmap/treemap.go: Ascend, Descend, Get, Put, Del"]}
{"id": "C173", "title": "Map and MapL are linearizable", "statement": "Put, Get, Has, Del (and Len of MapL), called by any number of goroutines, give results that one sequential order of the calls, respecting time, explains with a plain key/value map. For MapL with Len this is false: Len can answer -1 while a Put and a Del of the same key run. For Map, and for MapL without Len, it is true.", "quantifier": "for all key and value types, all numbers of goroutines, all sequences of calls and all interleavings of their atomic steps", "why_tests_cant": "a test checks the histories it happens to produce; that every history has an explaining order is a statement about all interleavings", "anchors": ["hashmap/map.go: Map.Put, Get, Has, Del", "hashmap/map.go: MapL.Put, Get, Has, Del, Len"]}
{"id": "C174", "title": "Encode's Gray, Invert, Rotate, FlipH and FlipV mean what they say", "statement": "With Options.Gray, Invert, Rotate (a multiple of 90), FlipH, FlipV and no size, crop, scale or blur, the picture Encode writes is the source, pixel for pixel: first every colour replaced by the rounded BT.601 grey, then by its negative, then quarter turns to the left, then left-right, then top-bottom mirrored, whatever the corner of the source. This is false for Rotate above 2^53 (float64(degrees) is not the angle); it holds up to 9e15.", "quantifier": "for all pictures (any size, bounds and colours), all combinations of the options and all multiples of 90 degrees", "why_tests_cant": "a test compares some pictures with stored ones; that every pixel of every picture goes to the right place, and that the float64 luminance of all 16 million colours is a correct rounding, is beyond samples", "anchors": ["image/image.go: Image.Encode, rotateImage, flipHImage, flipVImage, Options", "image/adjust.go: convertToGrayByImage, invertByImage"]}
{"id": "C175", "title": "Encode does not resample what keeps its size", "statement": "If the size that mode, width and height lead to is the size of the picture, in particular if the picture is smaller than the box both ways round, Encode without options keeps every pixel, in every mode and with every filter.", "quantifier": "for all pictures, modes, filters, widths and heights", "why_tests_cant": "a test tries some sizes; that no mode and no filter touches the pixels is a statement about all of them", "anchors": ["image/image.go: Image.Encode, praseMode, Image.selectFilter"]}
{"id": "C176", "title": "Encode never enlarges a picture unless asked to", "statement": "Without ScaleUpper and ScaleLower, for Rotate a multiple of 90 and for the modes other than 1 and 5 (or both sides given), whatever CropAnchor, CropSide, Gray, Invert, FlipH, FlipV, Blur, width and height say, the picture Encode writes has at most as many columns and rows as the source (exchanged after an odd number of quarter turns).", "quantifier": "for all pictures up to 2^31 pixels per side and all options, including crops that are negative, too large or overflow", "why_tests_cant": "a test tries a few crops and sizes; the combination of crops that overflow, modes and turns is a large space", "anchors": ["image/image.go: Image.Encode, praseMode", "image/adjust.go: cropImageByAnchor, cropImageBySide"]}
{"id": "C177", "title": "CropAnchor, CropSide, ScaleUpper, ScaleLower and the size in Encode", "statement": "In Encode, CropAnchor and CropSide are width, height, x, y and select that part of the source (cut to it, or moved into it); ScaleLower of two numbers makes the picture fit into the box, ScaleUpper cover it up to one row; a third number bounds the pixels (except for lines of one or two pixels); width, height and mode lead to the size of C70, C104-C106.", "quantifier": "for all pictures that start at 0 and all values of the options within the stated bounds", "why_tests_cant": "a test tries a few rectangles and boxes", "anchors": ["image/image.go: Image.Encode", "image/adjust.go: cropImageByAnchor, cropImageBySide, scaleImageWithRatio"]}
{"id": "C178", "title": "Await and FastAwait leave no entries behind", "statement": "Await.Has(idx) answers true only while a Wait, WaitWithCancel or SyncWait of idx is running: however the waits ended (value, Close, cancel, timeout), the table has no entry for an id nobody waits for. The same holds for the table of FastAwait.", "quantifier": "for all executions of any number of calls of Wait, CloseAndPut and Close by any goroutines, all interleavings of their accesses, all timeouts and cancellations", "why_tests_cant": "a leak in a rare interleaving shows only as memory growing slowly; a test cannot try all interleavings", "anchors": ["lock/await.go: Await.Get, Has, Wait, WaitWithCancel, SyncWait, Close, CloseAndPut", "lock/fastawait.go: FastAwait.Wait, WaitWithCancel, CloseAndPut, Close, del"]}
{"id": "C179", "title": "ResizeGIF keeps the animation", "statement": "The GIF returned by ResizeGIF has as many frames as the source, with the same delays, disposal, palettes and loop count; where no reduction is asked for, the screen keeps its size, and a frame changes on the screen only what it covers, the rest still showing the earlier frames.", "quantifier": "for all GIF animations the decoder accepts, all target sizes, and every blur, scaling and dithering that picks colours of the palette", "why_tests_cant": "the effect depends on palettes and frame rectangles of the file together; a test has one animation, usually with full frames", "anchors": ["image/image.go: ResizeGIF, resizeGIF"]}
{"id": "C180", "title": "No data races in fastio handles", "statement": "The methods of a fastio handle can be called by any number of goroutines at the same time without a data race; in particular the offset that WriteSync returns is read and changed without one.", "quantifier": "for all executions of any number of WriteSync, Write and Close calls, fast and slow ways, failed writes included, all interleavings of their memory accesses", "why_tests_cant": "the race detector finds the races of the interleaving it sees; freedom from races is about all of them, and here rests on the value of a counter", "anchors": ["fastio/fw.go: mwriter.WriteSync, Write, ioWrite", "fastio/file.go: fileHandle.Close"]}
{"id": "C181", "title": "No data races in mapped files", "statement": "Append, AppendSync, WriteAt and WriteAtSync of a mapped file can run at the same time without a data race on the offset, nor on any byte that no WriteAt covers: Appends never write the same byte, although they copy outside the mutex.", "quantifier": "for all executions of any number of calls with any sizes and offsets, all interleavings of their memory accesses, every size of the file and start offset", "why_tests_cant": "no test covers all interleavings; the copies are not under the mutex, so the argument is about the regions reserved", "anchors": ["mmap/mmap.go: Mmap.Append, AppendSync, WriteAt, WriteAtSync"]}
{"id": "C182", "title": "Several key stores on one file", "statement": "When several stores made by NewStoreAdmin work on the same key file, no credential that was put through one of them is lost: a store that loads the file afterwards finds every user that was put and not deleted.", "quantifier": "for all numbers of stores, all interleavings of their calls down to the single file operations, all contents", "why_tests_cant": "a test runs a few interleavings of a few stores; the loss needs two stores that loaded before either wrote", "anchors": ["keystore/keystore.go: storeAdmin.Load, PutAdmin, DelAdmin, PutClient, DelClient, PutMq, DelMq, PutOther, DelOther", "keystore/bin.go: _keyStore.Write, Read"]}
{"id": "C183", "title": "Records handed out by Get belong to the caller", "statement": "What a caller does with the record that GetAdmin, GetClient or GetMq returned does not change the store: until the next Put or Del of that user, Get returns what was put, and that is what is written to the file.", "quantifier": "for all sequences of Put, Get, Del and writes to records handed out, by any number of callers, all users", "why_tests_cant": "aliasing is invisible until some caller writes to the record, and tests rarely do", "anchors": ["keystore/keystore.go: storeAdmin.GetAdmin, GetClient, GetMq, PutAdmin, PutClient, PutMq, DelAdmin, DelClient, DelMq"]}
{"id": "C184", "title": "No data races in NewUUID", "statement": "NewUUID can be called by any number of goroutines at the same time without a data race, whatever the random start of the sequence.", "quantifier": "for all starts of the sequence, any number of goroutines and calls, all interleavings of their memory accesses", "why_tests_cant": "the racing access happens once in 2^64 calls", "anchors": ["uuid/uuid.go: NewUUID, localbase.uniq, getSeq, slice33"]}
{"id": "C185", "title": "The free bits of a UUID cannot be told from those of another", "statement": "Apart from the fixed version and variant bits, whoever has seen one UUID of a process knows nothing about the next: every version 4 UUID can come.", "quantifier": "for all UUIDs and all pairs of consecutive ones, all starts of the sequence, all values of the hash; all executions of any number of goroutines", "why_tests_cant": "tests see that UUIDs differ; what can follow a UUID is a statement about all of them", "anchors": ["uuid/uuid.go: NewUUID, localbase.uniq, getSeq"]}
{"id": "C186", "title": "Base58 form of a UUID", "statement": "UUID.Base58 is the base 58 text of the UUID's Int64: it decodes to it with DecodeForInt64, two UUIDs have the same text exactly if they have the same Int64, and the text of a generated UUID has 3 to 11 characters.", "quantifier": "for all UUIDs", "why_tests_cant": "2^128 UUIDs", "anchors": ["uuid/uuid.go: UUID.Base58, Int64", "base58/base58.go: EncodeForInt64, DecodeForInt64"]}
{"id": "C187", "title": "A key that cannot be hashed does no harm", "statement": "The key type of Map, MapL, LinkedHashMap, LimitMap and LruCache may be or contain an interface. A call whose key holds a slice, map or function panics; when the caller recovers, the container is as it was before the call.", "quantifier": "for all states of the five containers, all calls, all keys", "why_tests_cant": "tests use keys that can be hashed; the damage shows only in later calls", "anchors": ["hashmap/linkedhashmap.go: Put, LoadOrStore, Get, Delete, MoveToFront", "hashmap/limitmap.go: Put, Get, Del, RemoveMulti", "hashmap/map.go: Map, MapL", "cache/lrucache.go: LruCache"]}
{"id": "C188", "title": "The capacity of LimitMap holds for every key", "statement": "A LimitMap never has more entries than its capacity allows, whatever keys are put, floating point NaN included.", "quantifier": "for all capacities and histories of calls, all keys", "why_tests_cant": "NaN does not occur in tests, and the growth is slow", "anchors": ["hashmap/limitmap.go: Put, Del, RemoveMulti, Len"]}
{"id": "C189", "title": "Range visits every entry for every key", "statement": "Range of Map and MapL calls its function for every entry until it returns false, and returns.", "quantifier": "for all contents, all orders of iteration, all callbacks; keys of interface types, nil included", "why_tests_cant": "tests do not store under the nil interface", "anchors": ["hashmap/map.go: MapL.Range, Map.Range"]}
{"id": "C190", "title": "Modes 2, 3 and 4 cover the box", "statement": "Mode 3 with a width and a height gives an image that is at least that wide and that high, or as wide or high as the original; modes 2 and 4 do so with the bounds for the long and short side; with one bound, modes 3 and 4 take it for both sides.", "quantifier": "for all image sizes up to 2^25 and all bounds", "why_tests_cant": "the rounding that loses a column depends on exact ratios in float64", "anchors": ["image/image.go: praseMode, getMaxAndkeepRatio"]}
{"id": "C191", "title": "Thumbnails have the size asked for", "statement": "Mode 1 with a width and a height gives an image of exactly that size where the original is large enough, and of the original size in the directions where it is not; mode 5 does so with the bounds for the long and short side.", "quantifier": "for all image sizes and bounds", "why_tests_cant": "a handful of sizes does not show what happens when box and image are turned against each other", "anchors": ["image/image.go: praseMode, getSideByThubnail"]}
{"id": "C192", "title": "ReadFile returns a state of the file", "statement": "A call of ReadFile that returns without error returns what the file of that name contained at some moment during the call; and it always returns.", "quantifier": "for all files, all interleavings with changes by other processes and goroutines", "why_tests_cant": "the changes have to fall between the opening, the mapping and the copying of the bytes", "anchors": ["util/encode.go: ReadFile"]}
{"id": "C193", "title": "Credential store when the disk fails", "statement": "If writing the key file fails during one call, a process started afterwards finds what the store held before that call or after it; the failure does not lose what was saved before.", "quantifier": "for all stores, histories of calls, outcomes of Truncate and of the file write (stopping after any number of bytes), and iteration orders", "why_tests_cant": "a test would need a disk that fails at a chosen byte; the error is dropped by every caller, so nothing shows until the next start", "anchors": ["keystore/bin.go:_keyStore.Write", "keystore/keystore.go:storeAdmin.PutAdmin", "keystore/keystore.go:storeAdmin.Load"]}
{"id": "C194", "title": "Credential store and other programs at the key file", "statement": "Whatever other programs do to the key file (rename another file over it, edit it, remove it, damage it), after a Put whose write goes well a process started then finds the user; a damaged file is not overwritten.", "quantifier": "for all histories of calls, loads, restarts and foreign changes of the key file, and all contents", "why_tests_cant": "depends on the difference between the open handle (Write, Stat) and the name (ReadFile), which no single-process test shows", "anchors": ["keystore/bin.go:LoadKeyStore", "keystore/bin.go:_keyStore.Write", "keystore/bin.go:_keyStore.Read", "keystore/keystore.go:storeAdmin.Load", "keystore/keystore.go:storeAdmin.PutAdmin"]}
{"id": "C195", "title": "Snappy round trip and agreement of the two packages", "statement": "A Snappy block for x is decoded to x by util.SnappyDecode and compress.UnSnappy, whatever elements the encoder chose; damaged bytes give an error, and both packages take the same bytes for blocks.", "quantifier": "for all data below 4 GiB, all ways to write it as literals and copies, all input bytes", "why_tests_cant": "the encoder chooses one of very many blocks for each input and a test sees only those; damaged blocks that decode to something are few among all", "anchors": ["util/compress.go:SnappyEncode", "util/compress.go:SnappyDecode", "compress/compress.go:Snappy", "compress/compress.go:UnSnappy"]}
{"id": "C196", "title": "TDecode into a bean that is in use", "statement": "After TDecode(TEncode(kb), old) the bean holds exactly what kb held, whatever old held before; if there is an error, old is unchanged.", "quantifier": "for all beans, iteration orders of the encoder, previous contents and input bytes", "why_tests_cant": "tests decode into new beans; what is left over from earlier contents depends on which maps were nil when encoded and where an error occurs", "anchors": ["util/gob.go:TDecode", "thrift/serialize.go:TDecode", "keystore/store.go:KeyBean.Read", "keystore/store.go:KeyBean.ReadField1", "keystore/store.go:KeyBean.ReadField4"]}
{"id": "C197", "title": "Rate of false positives of a Bloom filter", "statement": "A filter made by NewBloomFilter(expectedItems, falsePositiveRate) answers Contains with true for an item that was not added in at most the given part of all cases, however many items have been added.", "quantifier": "for all numbers of expected items, rates between 0 and 1 and numbers of added items; the cases are all tables of hash positions (hash values independent and uniform)", "why_tests_cant": "a rate is a statement about all hash values; a test can only estimate it from a sample, and the rate moves with the generations of the filter", "anchors": ["cache/bloom.go:NewBloomFilter", "cache/bloom.go:BloomFilter.Add", "cache/bloom.go:BloomFilter.Contains", "cache/bloom.go:BloomFilter.getBitIndex"]}
{"id": "C198", "title": "JSON round trip", "statement": "JsonDecode(JsonEncode(v)) gives v again for booleans, int64s, strings, slices and maps of them in any nesting; different values have different documents, and the document is a text without control bytes, <, > and &.", "quantifier": "for all types built from bool, int64, string, slices and maps with string keys, all values of them, all bytes in strings", "why_tests_cant": "strings may hold any bytes, and what happens to a byte that is no UTF-8 depends on all the bytes around it; nesting has no bound", "anchors": ["util/gob.go:JsonEncode", "util/gob.go:JsonDecode"]}
{"id": "C199", "title": "JSON documents of other writers", "statement": "JsonDecode gives the value v exactly for the documents that stand for v after RFC 8259 (with null for the zero value and U+FFFD for faulty characters), with white space around; every other input gives an error.", "quantifier": "for all types as in C198 up to nesting 10000, all byte strings, all values", "why_tests_cant": "the documents for one value are infinitely many (white space, escapes, order of members, repeated keys), and the inputs that must be refused are even more", "anchors": ["util/gob.go:JsonDecode", "util/gob.go:JsonEncode"]}
{"id": "C200", "title": "Resizing again with the same arguments changes nothing", "statement": "Encode or Resize with a mode, width and height, applied to its own result with the same mode, width and height, keeps the size, and so every pixel.", "quantifier": "for all modes, picture sizes up to 2^25 and widths and heights (0 for one left open)", "why_tests_cant": "all integers; whether the sides are exchanged depends on the picture of the step before, and quotients are rounded", "anchors": ["image/image.go:praseMode", "image/image.go:getMinAndkeepRatio", "image/image.go:getMaxAndkeepRatio", "image/image.go:getSideByThubnail", "image/image.go:Image.Resize"]}
{"id": "C201", "title": "Every field of Options has an effect", "statement": "Each field of Options can change what Encode returns; in particular Quality and Colors.", "quantifier": "for every field: some picture, size and mode; for a field without effect: all pictures, sizes, modes, options and codecs", "why_tests_cant": "that a field never has an effect is a statement about all inputs", "anchors": ["image/image.go:Options", "image/image.go:Image.Encode"]}
{"id": "C202", "title": "Resize of a file", "statement": "For a type of file that keeps pictures, Resize returns a file of the same type whose picture has the size that the mode asks for; to 0 x 0, and for data that is no picture or of a type that cannot be written, it returns the data itself; applied to its result it returns the same picture, where C200 holds.", "quantifier": "for all codecs that keep pictures, all files, modes, filters, widths and heights", "why_tests_cant": "all pictures and all codecs", "anchors": ["image/image.go:Image.Resize", "image/image.go:Image.Encode"]}
{"id": "C203", "title": "Md5Str and Sha1Str", "statement": "MD5 returns 16 bytes and SHA1 20; Md5Str is 32 and Sha1Str 40 characters out of 0-9 and A-F, two for each byte of the digest in order, so two inputs have the same text exactly if they have the same digest.", "quantifier": "for all byte strings", "why_tests_cant": "all inputs", "anchors": ["util/encode.go:MD5", "util/encode.go:Md5Str", "util/encode.go:SHA1", "util/encode.go:Sha1Str"]}
{"id": "C204", "title": "MD5 does not tell inputs apart", "statement": "Different inputs may have the same MD5, so MD5, Md5Str and the iv of NewAes do not identify their input: for every ending there are two different inputs of the same length, each of at least 64 bytes, with this ending and the same digest, and NewAes makes the same cipher from both.", "quantifier": "for all endings and all lengths from 64 bytes on, all keys", "why_tests_cant": "a test would have to know a collision, and that it lasts whatever follows is a statement about all endings", "anchors": ["util/encode.go:MD5", "util/encode.go:Md5Str", "keystore/aes.go:_md5", "keystore/aes.go:NewAes"]}
{"id": "C205", "title": "A digest of a secret and a message can be continued without the secret", "statement": "From the MD5 or SHA1 digest of a secret followed by a message and their common length one can compute, without the secret, the digest of the secret followed by the message, a filling that depends on the length only, and any further text. So MD5(secret+message) and SHA1(secret+message) do not authenticate messages.", "quantifier": "for all secrets, messages and continuations", "why_tests_cant": "all secrets; the function does not see the secret", "anchors": ["util/encode.go:MD5", "util/encode.go:SHA1"]}
{"id": "C206", "title": "Decrypting with a wrong password gives no error", "statement": "AesDecrypter and DecrypterCbc never report a wrong password: every ciphertext of at least 256 bytes in whole blocks is turned into some text, with a nil error, under every password; shorter ones give a text or a panic.", "quantifier": "for all ciphertexts, initialisation vectors and keys; AES-256, MD5 and SHA-256 as in their standards", "why_tests_cant": "all keys and ciphertexts", "anchors": ["keystore/aes.go:Aes.DecrypterCbc", "keystore/aes.go:AesDecrypter"]}
{"id": "C207", "title": "Encode and Decode (gob) give back the value that was encoded", "statement": "Decode[T] of the bytes that Encode made of a value of type T without error gives back this value, whatever bytes follow. As it is: an empty slice comes back nil, a nil map comes back empty except in a field, a field with a negative zero comes back zero and a field with a pointer to zero, an empty string, false or nothing comes back nil; all other values come back unchanged, and what came back once comes back unchanged from then on.", "quantifier": "for all types made of booleans, numbers, strings, byte slices, slices, maps, pointers and structs, nested to any depth, and all their values", "why_tests_cant": "all types and values of any depth; which of them change is a statement about all of them", "anchors": ["util/gob.go:Encode", "util/gob.go:Decode"]}
{"id": "C208", "title": "What Encode (gob) refuses, and bytes cut short", "statement": "Encode panics exactly on nil pointers; it returns an error exactly if a nil pointer is an element, a key or an entry of a slice or map at any depth, or the message is 2^33 bytes or longer. The bytes it returns with the error are decoded by nothing. Bytes made by Encode and cut short at any place are an error of Decode for every type.", "quantifier": "for all types and values as in C207, all places to cut", "why_tests_cant": "all values, and all cuts of all of them", "anchors": ["util/gob.go:Encode", "util/gob.go:Decode"]}
{"id": "C209", "title": "Only the password that was put fits a record of the credential store", "statement": "Right after PutAdmin, PutClient or another Put of the credential store succeeded for a user, a password fits the record that the Get returns (its Md5Str equals the stored string) exactly if it is the password that was put. As it is: exactly the passwords with the same MD5 fit; for every ending there are two different passwords with this ending each of which fits the record of the other; and two users with the same password have the same record, there is no salt.", "quantifier": "for all states of the store, kinds of users, names, passwords and types", "why_tests_cant": "all passwords and states; that no other password fits is a statement about all of them", "anchors": ["keystore/keystore.go:storeAdmin.PutAdmin", "keystore/keystore.go:storeAdmin.GetAdmin", "keystore/keystore.go:storeAdmin.PutClient", "keystore/keystore.go:storeAdmin.GetClient", "util/encode.go:Md5Str"]}
{"id": "C210", "title": "IsFileExist is true exactly if there is such a file", "statement": "IsFileExist of a path is true exactly if the path is the name of an entry of a directory. As it is: true exactly if the path is not empty, shorter than 4096 bytes, without a zero byte, and leads through directories that the caller may search and over at most 40 symbolic links to something, directories included; it is false for files in directories that the caller may not search and for links that lead nowhere, so the answer depends on who asks.", "quantifier": "for all trees of directories, links and files, all search permissions, all working directories and all paths", "why_tests_cant": "all trees, permissions and paths", "anchors": ["util/encode.go:IsFileExist"]}
{"id": "C211", "title": "UUID32 repeats itself", "statement": "The results of UUID32 are not different from each other: of more than 2^32 results in a process some two are equal, whatever the hash function and however the calls are interleaved; two results are equal exactly if the hash values of the UUIDs agree in the lower 32 bits.", "quantifier": "for all hash functions, numbers of goroutines, starting values of the counter and executions", "why_tests_cant": "all executions with more than 2^32 calls and all seeds of the hash", "anchors": ["util/encode.go:UUID32", "uuid/uuid.go:UUID.Int32", "uuid/uuid.go:NewUUID"]}
{"id": "C212", "title": "A server reads one request with the data given", "statement": "Whatever the data, the map of headers and the cookie given to Post, Post2 or Post3 are, a server that reads the bytes of a request that goes out reads exactly one request, whose body is the data, and nothing is left over: neither the data nor a header or the cookie can make a second request of it or change where the body ends. This holds for servers that take a line feed alone for the end of a line, too, and for redirected requests.", "quantifier": "for all data, maps of headers, cookies, URLs, credentials in the URL, servers and redirects", "why_tests_cant": "all header maps and data; a smuggled request is an adversarial input that tests do not find", "anchors": ["httpclient/post.go:Post", "httpclient/post.go:Post2", "httpclient/post.go:Post3"]}
{"id": "C213", "title": "Every entry of the map of headers arrives at the server", "statement": "The server gets every entry of the map of headers of Post3, up to blanks at the ends of values. As it is: entries named Host, Content-Length, Transfer-Encoding or Trailer in any case are never sent, an empty User-Agent and an empty Authorization may be missing; all others arrive, a Cookie of the map is joined with the cookie by a semicolon and a space, and all other fields are the six that the library adds.", "quantifier": "for all maps of headers whose names differ in more than case, cookies, data, URLs and servers", "why_tests_cant": "all header maps; which entries are dropped is a statement about all names", "anchors": ["httpclient/post.go:Post3"]}
{"id": "C214", "title": "Goroutines that take several locks in ascending order do not deadlock", "statement": "Goroutines that hold several locks of a Numlock or Strlock at a time and ask only for keys greater than all those they hold never deadlock. As it is: this fails, since keys share mutexes: a goroutine that locks key 0 and then key muxNum waits for itself. It holds for goroutines that take locks in ascending order of the mutex of the key, with any number of goroutines, for readers and writers; asking once more for a key held for reading deadlocks if a Lock came in between.", "quantifier": "for all numbers of mutexes, hash functions, numbers of goroutines and interleavings of their calls", "why_tests_cant": "all interleavings of any number of goroutines; a deadlock needs a certain order of steps and keys that share a mutex", "anchors": ["lock/lock.go:Numlock.Lock", "lock/lock.go:Strlock.Lock", "lock/lock.go:Strlock.RLock"]}
{"id": "C215", "title": "Unmarshal of the bytes of Marshal gives the same message or an error, never another", "statement": "For every message of every schema: if all its strings are UTF-8, Unmarshal(Marshal(m)) gives m, unknown fields included; if a string is not UTF-8 (also deep within), Marshal drops the error and returns bytes that every Unmarshal refuses; a message with more levels than the 10000 of the library is refused; different messages give different bytes; whatever Unmarshal has read from any bytes is written such that it is read again as the same. As it is, not everything that Marshal returns is accepted by Unmarshal.", "quantifier": "for all schemas (numbers, strings, bytes, nested and recursive messages, repeated and packed fields), messages below 2^63 bytes, and input bytes", "why_tests_cant": "all messages of all schemas and all byte strings; the strings that are cut off within nested messages must not be taken for another message", "anchors": ["util/protobuf.go:Marshal", "util/protobuf.go:Unmarshal"]}
{"id": "C216", "title": "Bytes of messages one after the other are the merged message", "statement": "Unmarshal of bytes followed by Marshal(y) gives what the bytes alone give, merged with y: repeated fields appended, messages within merged, other fields taken from y where set, unknown fields appended. In particular Unmarshal(Marshal(x) ++ Marshal(y)) is x merged with y.", "quantifier": "for all schemas, bytes that Unmarshal accepts, and messages", "why_tests_cant": "all pairs of messages of all schemas", "anchors": ["util/protobuf.go:Marshal", "util/protobuf.go:Unmarshal"]}
{"id": "C217", "title": "A program with an older schema passes messages on unharmed", "statement": "A program whose schema lacks fields, at any level (or has repeated numbers packed where they were not), reads what a newer program wrote, sees the values of all fields that it knows, and when it writes the message again the newer program reads exactly the original message.", "quantifier": "for all schemas, subsets of their fields, and messages", "why_tests_cant": "all pairs of schema versions and all messages", "anchors": ["util/protobuf.go:Marshal", "util/protobuf.go:Unmarshal"]}
{"id": "C218", "title": "Blake2b is BLAKE2b-256 of RFC 7693, and no digest is a stage on the way to another", "statement": "Blake2b(input) returns, without an error, the 32 bytes that RFC 7693 defines for the input, for every length (empty, whole blocks, beyond 2^32 bytes). What the standard compresses for one message is never the beginning of what it compresses for another, so the state behind a digest is not passed on the way to the digest of a longer message (unlike MD5 and SHA-1, C205).", "quantifier": "for all inputs shorter than 2^63 bytes; all pairs of messages", "why_tests_cant": "all messages of all lengths, in particular those around the borders of blocks and those too long to be tried", "anchors": ["util/encode.go:Blake2b"]}
{"id": "C219", "title": "Credential store is linearizable", "statement": "Calls of the store by any number of goroutines at the same time are explained by one order that respects time, in which four independent maps give the same answers. Whoever looks at the key file, at any moment, finds it empty, or as it was before the first change, or a complete form of the maps after the calls of that order; when no call is under way it is such a complete form.", "quantifier": "for all numbers of goroutines, calls, interleavings of their steps, compressors, and key files that load without nil maps", "why_tests_cant": "all interleavings of memory and file accesses of all programs; a reader of the file at every moment", "anchors": ["keystore/keystore.go:storeAdmin", "keystore/bin.go:_keyStore.Write"]}
{"id": "C220", "title": "Numbers of protobuf messages survive a change of their type", "statement": "When the type of a field is changed among int32, int64, uint32, uint64 and bool (or between sint32 and sint64), Unmarshal with the new type accepts every message that Marshal wrote with the old one: every number is the old one converted to the new type (the same number whenever the new type has it, otherwise the rest modulo 2^32 or 2^64; every number but 0 is true; sint32 keeps the sign), a field without presence does not show a number that became 0, and everything else, also in messages within messages, stays as it was.", "quantifier": "for all pairs of schemas that differ only in such types, all messages whose strings are UTF-8, all depths and sizes below 2^63", "why_tests_cant": "all schemas, messages and values; overflow at every border", "anchors": ["util/protobuf.go:Marshal", "util/protobuf.go:Unmarshal"]}
{"id": "C221", "title": "Every Thrift struct comes back from TDecode", "statement": "For every struct type the Thrift compiler can generate, TDecode of what TEncode gave yields the same struct: every field with its value, unset optional fields unset, maps with the same entries, whatever bytes follow. The bytes are those of the published compact format, and they are refused when cut anywhere.", "quantifier": "for all schemas (any types, any nesting of lists, sets, maps and structs, recursive ones too), all their values and depths, sizes up to the configured limit, all orders of map iteration, all places of the cut", "why_tests_cant": "all schemas and values; every prefix", "anchors": ["thrift/serialize.go:TEncode", "thrift/serialize.go:TDecode", "util/gob.go:TEncode", "util/gob.go:TDecode"]}
{"id": "C222", "title": "Thrift structs between programs of different versions", "statement": "A program generated from another version of the interface file reads the struct exactly if the fields it requires are there and the fields it does not know are nested at most 64 deep (also in structs within fields it knows): it then has the fields both versions have, new fields unset (zero without keyword), nothing of the others; a field whose type was changed to one with another wire type counts as unknown. Otherwise TDecode returns an error.", "quantifier": "for all schemas (any types, any nesting of lists, sets, maps and structs, recursive ones too), all their values and depths, sizes up to the configured limit, all orders of map iteration; all pairs of versions that do not reuse an id with the same wire type", "why_tests_cant": "all pairs of schemas, all values", "anchors": ["thrift/serialize.go:TEncode", "thrift/serialize.go:TDecode", "util/gob.go:TEncode", "util/gob.go:TDecode"]}
{"id": "C223", "title": "A set with an element twice is lost silently", "statement": "TEncode gives for a struct with an element twice in some slice that stands for a set, at any depth, a proper beginning of the bytes it should give, without an error; TDecode refuses these bytes.", "quantifier": "for all schemas (any types, any nesting of lists, sets, maps and structs, recursive ones too), all their values and depths, sizes up to the configured limit, all orders of map iteration", "why_tests_cant": "all schemas and values, the double at any place", "anchors": ["thrift/serialize.go:TEncode", "thrift/serialize.go:TDecode", "util/gob.go:TEncode", "util/gob.go:TDecode"]}
{"id": "C224", "title": "A program with an older interface file does not pass on what it does not know", "statement": "A struct read and written again by a program with an older version of the file has lost the fields the program does not know (unlike protocol buffers, C217): structs that differ only in them give the same bytes.", "quantifier": "for all schemas (any types, any nesting of lists, sets, maps and structs, recursive ones too), all their values and depths, sizes up to the configured limit, all orders of map iteration", "why_tests_cant": "all pairs of schemas and values", "anchors": ["thrift/serialize.go:TEncode", "thrift/serialize.go:TDecode", "util/gob.go:TEncode", "util/gob.go:TDecode"]}
{"id": "C225", "title": "A program with an older interface file can read newer structs", "statement": "TDecode by a program that has some of the fields reads every struct of the newer version. Refuted: a field nested 65 deep that the older program does not know makes the whole struct unreadable, although the newer program reads it; proved for structs nested at most 64 deep.", "quantifier": "for all schemas (any types, any nesting of lists, sets, maps and structs, recursive ones too), all their values and depths, sizes up to the configured limit, all orders of map iteration", "why_tests_cant": "all pairs of schemas and values; the depth of the skipped field", "anchors": ["thrift/serialize.go:TEncode", "thrift/serialize.go:TDecode", "util/gob.go:TEncode", "util/gob.go:TDecode"]}
{"id": "C226", "title": "Data accessed only with its lock held has no data race", "statement": "Goroutines that access each datum only while they hold its key in a Numlock (or, in a Strlock, hold it for writing to write and for reading or writing to read) have no data race on any of the data, whichever other keys share the mutex and whatever else they hold; the same with a LimitLock of limit 1. With another key, with the key for reading only, or with limit 2 there are races.", "quantifier": "for all numbers of mutexes, keys, hash functions, assignments of data to keys, numbers of goroutines, programs and interleavings", "why_tests_cant": "all programs and interleavings; a race detector sees one execution", "anchors": ["lock/lock.go:Numlock", "lock/lock.go:Strlock", "lock/lock.go:LimitLock"]}
{"id": "C227", "title": "Await and FastAwait can be used by many goroutines without a data race", "statement": "The methods of Await and FastAwait can be called at the same time, for the same and for different ids, without a data race. Refuted for FastAwait: two Waits that return at the same time, or a Wait that returns while CloseAndPut looks for its id, race on a word of the Bloom filter, for any two ids whose bits share the word. Proved for Await, and for everything in FastAwait but the filter.", "quantifier": "for all ids, assignments of ids to mutexes and words, numbers of goroutines and interleavings", "why_tests_cant": "all interleavings; a race detector sees one execution", "anchors": ["lock/await.go:Await", "lock/fastawait.go:FastAwait", "lock/fastawait.go:Wait", "lock/fastawait.go:CloseAndPut"]}
{"id": "C228", "title": "What is handed over by CloseAndPut can be read by the one who waited", "statement": "What a goroutine wrote into an object before CloseAndPut of a pointer to it is seen by whoever gets the pointer from Wait, WaitWithCancel or SyncWait, and there is no data race on the object.", "quantifier": "for all ids, numbers of goroutines, objects and interleavings", "why_tests_cant": "visibility of memory between goroutines over all interleavings", "anchors": ["lock/await.go:CloseAndPut", "lock/await.go:Wait", "lock/await.go:WaitWithCancel", "lock/await.go:SyncWait", "lock/fastawait.go:CloseAndPut", "lock/fastawait.go:Wait"]}
{"id": "C229", "title": "What is put into a container can be read by the one who gets it out", "statement": "What a goroutine wrote into an object before it put a pointer to it into a Map, MapL, LimitMap, LruCache, TreeMap or LimitHashMap is seen by whoever gets the pointer out (also as previous value, or in a callback of Range, Ascend, Descend), and there is no data race on the object; likewise Get of a LinkedHashMap, which takes no mutex, reads in an entry what Put wrote there.", "quantifier": "for all keys, numbers of goroutines, objects and interleavings", "why_tests_cant": "visibility of memory between goroutines over all interleavings", "anchors": ["hashmap/map.go:Map", "hashmap/map.go:MapL", "hashmap/limitmap.go:LimitMap", "hashmap/treemap.go:TreeMap", "hashmap/limithashmap.go:LimitHashMap", "hashmap/linkedhashmap.go:LinkedHashMap", "cache/lrucache.go:LruCache"]}
{"id": "C230", "title": "A function given to Go sees what was written before", "statement": "What a goroutine wrote before GoPool.Go(f) is seen by f, which runs in another goroutine, and there is no data race on it; also when the pool is closed before or meanwhile.", "quantifier": "for all numbers of workers, dispatchers and goroutines, all functions and interleavings", "why_tests_cant": "visibility of memory between goroutines over all interleavings", "anchors": ["pool/gopool/gopool.go:Go"]}
{"id": "C231", "title": "Map and MapL are linearizable over the algorithm of sync.Map", "statement": "Put, Get, Has and Del, called by any number of goroutines while others Range over the map, give results that one sequential order of the calls, respecting time, explains with a plain key/value map; the operations of sync.Map are not taken as atomic but as the steps of its algorithm (read-only map, dirty map under a mutex, entries with atomic pointers, expunged entries, promotion after misses). A call that has begun can always go on, or waits for a mutex whose holder can go on.", "quantifier": "for all key and value types, all numbers of goroutines, all sequences of calls and all interleavings of the atomic steps of sync.Map", "why_tests_cant": "all interleavings of a lock-free algorithm; a stress test sees a few", "anchors": ["hashmap/map.go: Map.Put, Get, Has, Del, Range", "hashmap/map.go: MapL.Put, Get, Has, Del, Range"]}
{"id": "C232", "title": "What Range shows of a map that others change", "statement": "While others change the map, Range gives no key twice, and for every key it answers like a Get of that key at some moment of the call: with a value the key then had, or (if it went through to the end without giving the key) with its absence; this holds for all keys and calls together in one order. Range is not a picture of the map at one moment: it can show a combination of values the map never had.", "quantifier": "for all key and value types, all numbers of goroutines, all calls, callbacks that stop or go on, orders of iteration and interleavings of the atomic steps of sync.Map", "why_tests_cant": "all interleavings; the combinations a Range may show depend on where it is when others write", "anchors": ["hashmap/map.go: Map.Range", "hashmap/map.go: MapL.Range"]}
{"id": "C233", "title": "MatchString finds what the pattern describes", "statement": "MatchString(pattern, s) is true exactly if some part of s (possibly empty) fits the pattern, for every pattern of the grammar of Go's regular expressions (characters, classes, escapes, groups, switches, repetitions, alternatives, anchors) and every string; bytes of s that are no UTF-8 count as U+FFFD. A pattern has one meaning.", "quantifier": "for all patterns of the grammar within the limits of Go on depth (1000) and size, all strings of bytes, any case folding", "why_tests_cant": "patterns and texts are unbounded; each test checks one pair; the result depends on parser, simplification, compilation and simulation together", "anchors": ["util/encode.go: MatchString"]}
{"id": "C234", "title": "MatchString takes time proportional to pattern times text", "statement": "The number of search steps is at most a constant times the length of the pattern times the length of the text, for every pattern and text: there is no pattern with which a user or attacker can make it take exponential time.", "quantifier": "for all patterns and all strings", "why_tests_cant": "an upper bound over all patterns; a test can only try the known bad ones", "anchors": ["util/encode.go: MatchString"]}
{"id": "C235", "title": "Checking a whole text, and finding a text as it is written", "statement": "MatchString(\"^(?:\"+p+\")$\", s) is true exactly if p fits s from begin to end; MatchString(p, s) and MatchString(\"^\"+p+\"$\", s) do not do this. With a backslash before each special character a text is found exactly if it occurs in s; without them this does not hold.", "quantifier": "for all patterns p of the grammar within the limits of Go on depth and size, all texts and all strings", "why_tests_cant": "an equivalence over all patterns and texts", "anchors": ["util/encode.go: MatchString"]}
{"id": "C236", "title": "A pattern with a mistake gives false for every text", "statement": "MatchString gives false for every string if the pattern has a parenthesis missing or too many, is not UTF-8, or is one of the patterns of other languages (a**, (?=a), back references, counts above 1000, ...); so false does not mean that nothing fits.", "quantifier": "for all strings, and all patterns with one of the mistakes", "why_tests_cant": "all texts for each wrong pattern; a test that expects false passes on a broken pattern", "anchors": ["util/encode.go: MatchString"]}
{"id": "C237", "title": "What comes back when a struct goes through JsonEncode and JsonDecode", "statement": "For structs of booleans, integers, strings, pointers, slices, maps and structs, with field names and omitempty: JsonDecode of what JsonEncode wrote succeeds and gives exactly one value, the one that was written with strings made valid UTF-8, a pointer to nil replaced by nil, and empty slices and maps in fields with omitempty replaced by nil. All other values come back unchanged, a second trip changes nothing any more, and two such values are never written alike. That every value comes back unchanged is false.", "quantifier": "for all types of this form with distinct names, nested at most 10000 deep, and all their values", "why_tests_cant": "types and values are both unbounded; a test checks one value of one type", "anchors": ["util/gob.go: JsonEncode", "util/gob.go: JsonDecode"]}
{"id": "C238", "title": "Reading with another version of the struct", "statement": "What one version of a program wrote is read by another whose struct has further fields (they are zero), lacks some (they are ignored), has pointers where there were values, or integers of another size: the common fields arrive unchanged. An integer that does not fit gives an error, not another number. Reading and writing again with the older version loses the fields it does not know.", "quantifier": "for all pairs of types and values related by the view, all field lists and added fields, all pairs of integer types and all integers", "why_tests_cant": "pairs of types cannot be enumerated; a test checks one pair", "anchors": ["util/gob.go: JsonEncode", "util/gob.go: JsonDecode"]}
{"id": "C239", "title": "Which member of a document sets which field", "statement": "JsonDecode into a struct sets each field to what the one member that names it (exactly, or up to case) says by itself; a field that no member names is zero; members that name no field have no effect; the order of the members does not matter as long as no two name the same field. Of several members for a boolean, a number, a string or a pointer to one the last counts if it fits; null has no effect on booleans, numbers, strings and structs and clears pointers, slices and maps; two objects for one struct or map act like one object with the members of both. That always the last one counts is false: for slices what the earlier ones left shows through.", "quantifier": "for all documents of the grammar, all structs, any case folding", "why_tests_cant": "all documents for all structs, including duplicate and misspelt members which tests rarely contain", "anchors": ["util/gob.go: JsonEncode", "util/gob.go: JsonDecode"]}
{"id": "C240", "title": "When JsonDecode into a struct fails, and what it leaves", "statement": "There is no error exactly if the bytes are one JSON document, nested at most 10000 deep, whose values fit the types of the fields they name (null fits everywhere). Bytes that are no document give the zero value. The result is always a value of the type. A document of which some value does not fit gives an error and a value with the other fields set.", "quantifier": "for all byte strings, all types of this form", "why_tests_cant": "an equivalence over all byte strings and all types", "anchors": ["util/gob.go: JsonEncode", "util/gob.go: JsonDecode"]}
{"id": "C241", "title": "Which bytes UnZlib and UnGzip accept, and what they mean", "statement": "compress.UnZlib returns data without an error exactly if its argument begins with a zlib stream for this data (RFC 1950 and 1951), compress.UnGzip exactly if its argument is a gzip file for this data (RFC 1952); in all other cases there is an error and no data. No stream stands for two data, no zlib stream begins another, and for every data there is a stream, at most a few bytes longer. A writer of the format therefore meets all that the round trips need.", "quantifier": "for all byte strings", "why_tests_cant": "an equivalence over all byte strings with all ways to compress, headers with all flags", "anchors": ["compress/compress.go: UnZlib", "compress/compress.go: UnGzip"]}
{"id": "C242", "title": "What follows a compressed stream", "statement": "What follows a zlib stream is not looked at by compress.UnZlib. Gzip files one after the other are a gzip file for the data one after the other; anything else after a gzip file is an error in compress.UnGzip.", "quantifier": "for all accepted byte strings and all bytes after them", "why_tests_cant": "all pairs of streams and rests", "anchors": ["compress/compress.go: UnZlib", "compress/compress.go: UnGzip"]}
{"id": "C243", "title": "How much data can come out of compressed bytes", "statement": "UnZlib and UnGzip return at most 1032 bytes for each byte they are given, whatever these are. The factor cannot be smaller: for every k there is a stream of k + 20 bytes that gives 1032 k + 1 bytes.", "quantifier": "for all byte strings, and for all k", "why_tests_cant": "a bound over all inputs; the worst input has to be constructed and its length is unbounded", "anchors": ["compress/compress.go: UnZlib", "compress/compress.go: UnGzip", "util/compress.go: UnZlib", "util/compress.go: UnGzip"]}
{"id": "C244", "title": "Compressed streams that are cut off", "statement": "compress.UnZlib gives an error and no data for every stream that is cut off anywhere; compress.UnGzip does unless the cut is between two members. util.UnZlib and util.UnGzip give a beginning of the data and no error once the header is there, and util.UnZlib does not look at the checksum; what a Flush wrote is read completely. That a cut is always noticed is false.", "quantifier": "for all streams, all places to cut, all ways in which the reader delivers its data", "why_tests_cant": "every stream with every place to cut", "anchors": ["compress/compress.go: UnZlib", "compress/compress.go: UnGzip", "util/compress.go: UnZlib", "util/compress.go: UnGzip"]}
{"id": "C245", "title": "Decode into another version of the type", "statement": "What Encode wrote for a value of one type and Decode reads into a variable of another comes out field by field: every field has what the field of the same name held, whatever the order of the fields, and its zero value if there is none or it held nothing; fields that the variable does not have are skipped; pointers are followed on one side and made on the other; numbers are the same. It does not matter which numbers and names the encoding process gave to its types nor what bytes follow, bytes cut short are an error, and a value read as its own type is the same up to empty slices, nil maps and pointers to nothing.", "quantifier": "for all types without recursion, all values, all ways to number the types, all bytes that follow", "why_tests_cant": "all pairs of types with all values; types nest without limit", "anchors": ["util/gob.go: Encode", "util/gob.go: Decode"]}
{"id": "C246", "title": "Versions of a type: when Decode fails", "statement": "Decode of what Encode wrote fails exactly if a field of the same name has a type of another kind (even where the field was never set), if both are structs with fields and none has the same name, or if a number does not fit the variable. So adding, removing and moving fields and larger sizes of numbers never make data unreadable, unless no field is left; that they never do at all is false. A value that goes through a program with a version that lacks fields loses them.", "quantifier": "for all pairs of types and all values", "why_tests_cant": "all pairs of versions with all values", "anchors": ["util/gob.go: Encode", "util/gob.go: Decode"]}
{"id": "C247", "title": "Nearest neighbour only picks pixels", "statement": "With the filter NearestNeighbor, that of an Image whose filter was not set, every colour of the encoded picture is a colour of the source, whatever mode, size, crops, flips and quarter turns. A pixel of the result is the pixel of the source in which its centre lies (one of the two where it lies on a border), so a picture made smaller by whole factors consists of the middle pixels of its blocks.", "quantifier": "for all pictures with sides up to 2^19 (2^24 for the place), all modes, sizes, crops, flips and quarter turns", "why_tests_cant": "the place is computed with float64 numbers: for some pair of sizes and some column a rounding could leave the picture or skip to a neighbour; all pairs of sizes cannot be tried", "anchors": ["image/image.go: Encode", "image/image.go: selectFilter", "image/image.go: parseImage"]}
{"id": "C248", "title": "Averaging filters invent no shades", "statement": "Resizing keeps the range of red, green and blue of the visible pixels and the range of opacity: no halos, nothing brighter than the brightest pixel, opaque pictures stay opaque, a picture of one colour keeps exactly that colour, and invisible pixels do not bleed into visible ones. That this holds for all filters is false: MitchellNetravali (also used for unknown filter numbers) and CatmullRom overshoot at edges. It holds for Box, Linear, Hermite and BSpline (the last two in spite of kernel values that rounding makes negative) and for every filter that is nowhere negative and positive up to a distance of 1/2.", "quantifier": "for all pictures with sides up to 2^19, all modes, sizes, crops, flips, quarter turns and blurs, every channel and range", "why_tests_cant": "sums of up to as many float64 products as the picture is wide, for all pairs of sizes and all pixels", "anchors": ["image/image.go: Encode", "image/image.go: selectFilter"]}
{"id": "C249", "title": "Blur keeps size, shades and opacity and is local", "statement": "Blurring keeps the size of the picture, the range of shades of the visible pixels and the range of opacity, so that pictures of one colour do not change and opaque ones stay opaque; a pixel of the result depends on pixels at most three sigma away.", "quantifier": "for all pictures, all sigma above 0, every kernel that is nowhere negative and positive in the middle", "why_tests_cant": "all pictures, all sigma; sums of float64 numbers over windows of any size", "anchors": ["image/adjust.go: blurGaussianImage", "image/image.go: Encode"]}
{"id": "C250", "title": "The encoded picture has exactly the size of the rules", "statement": "The picture that Encode makes has exactly the size that the rules of the mode give; thumbnails, which the library makes by scaling and cropping in an order that depends on the size of the source, are neither a pixel too small nor too large.", "quantifier": "for all pictures with sides up to 2^25, all modes and sizes", "why_tests_cant": "the crop is taken from a side computed and rounded with float64 numbers and must never be one pixel short; all combinations of four sizes", "anchors": ["image/image.go: Encode", "image/image.go: getSideByThubnail", "image/image.go: praseMode"]}
{"id": "C251", "title": "LimitLock when Unlock is called by goroutines without the lock", "statement": "At most limit goroutines have the lock, whoever calls Unlock. This is false: a goroutine whose Lock timed out and that calls Unlock all the same lets another one in. Each such surplus call lets in at most one more, and without them there are never more than limit, also when the lock is given back by another goroutine than the one that took it, and with a limit of 0 nobody gets it.", "quantifier": "for all limits (0 included), all interleavings of Lock, timeouts and Unlock by anybody", "why_tests_cant": "needs every interleaving of calls and every pattern of surplus Unlocks", "anchors": ["lock/lock.go: LimitLock", "lock/lock.go: NewLimitLock"]}
{"id": "C252", "title": "LimitLock: which calls of Unlock return", "statement": "Calls of Unlock that go through are never more than the calls of Lock that got the lock, and never fewer by more than the limit; a call waits exactly while it would break this, so an Unlock before any Lock waits instead of panicking. That a goroutine with the lock never waits in its Unlock is false after a surplus Unlock, and holds without them. While no call runs, Cc is the number of Locks that returned nil less that of Unlocks that returned.", "quantifier": "for all limits, all interleavings", "why_tests_cant": "every interleaving; the goroutine that waits is not the one that made the mistake", "anchors": ["lock/lock.go: LimitLock"]}
{"id": "C253", "title": "GoPool: the stack of the dispatcher does not grow with the use of the pool", "statement": "For every pool there is a number of stack frames that is enough for its dispatcher goroutine, however often Go is called. This is false: _funcn ends with a call of itself, and each Go that comes between its two looks at the counter leaves one more frame, also in a pool that nobody closes and whose functions have all returned; after Close three calls of Go are enough for any number of frames, and the process is killed when the stack is full. As long as the queue is not closed (ten seconds after Close) there are at most as many frames as calls of Go, and none when there is no dispatcher.", "quantifier": "for all pools, all numbers of calls, all interleavings", "why_tests_cant": "the growth needs a race in each call, and millions of calls before it is seen", "anchors": ["pool/gopool/gopool.go:GoPool._funcn", "pool/gopool/gopool.go:GoPool.funcn", "pool/gopool/gopool.go:GoPool.Go"]}
{"id": "C254", "title": "A mapped file can be filled in several sessions", "statement": "A file that was filled by Appends up to some place, and closed, can be mapped again at this place, as often as one likes, and in the end holds all that was written, in the order in which regions were handed out, without gaps, the rest of the file being as it was. The first half is false for a file that is full: NewMMAP refuses a start offset equal to the size. For all others it holds.", "quantifier": "for all files, start offsets, numbers of sessions, all interleavings of Append and AppendSync in each", "why_tests_cant": "any number of sessions and every interleaving in each of them", "anchors": ["mmap/mmap.go:NewMMAP", "mmap/mmap.go:Mmap.Append", "mmap/mmap.go:Mmap.Close"]}
{"id": "C255", "title": "Several Mmaps of one file", "statement": "Appends through several Mmaps of one file do not overwrite each other. This is false: each Mmap counts its own offset, so that two mappings at the same start hand out the same regions. Appends through one mapping never overlap, whatever is done through the others; a call finds its data in the file unless its region has an address in common with another one's; so all is well if every mapping keeps to a part of the file of its own.", "quantifier": "for all files, any number of mappings with any start offsets, all calls, all interleavings", "why_tests_cant": "every interleaving of calls through any number of mappings", "anchors": ["mmap/mmap.go:NewMMAP", "mmap/mmap.go:Mmap.Append", "mmap/mmap.go:Mmap.WriteAt"]}
{"id": "C256", "title": "A Send is one message on the wire", "statement": "Any sequence of Sends on a Handler of the websocket package is read by a server that keeps to RFC 6455 as exactly one whole binary message for each call, with the bytes given to Send, in order, whatever the random masking keys and whatever the lengths (one, two or eight bytes of length).", "quantifier": "for all sequences of payloads below 2^63 bytes, all masking keys", "why_tests_cant": "all payloads, lengths and random keys", "anchors": ["websocket/wshandle.go:sendws", "websocket/wshandle.go:Send"]}
{"id": "C257", "title": "Messages of the server reach OnMessage whole", "statement": "OnMessage gets the messages that the server sends, whole and in order. This is false: a message sent in fragments is given to OnMessage in pieces, one call for each fragment, and a message longer than 32 MB ends the connection. Messages that are neither reach it whole and in order, with pings and pongs anywhere between; of fragmented ones no byte is lost or out of place.", "quantifier": "for all legal sequences of frames of the server", "why_tests_cant": "every sequence of frames and every fragmentation", "anchors": ["websocket/wshandle.go:read"]}
{"id": "C258", "title": "A connection that ends early delivers no false message", "statement": "If the connection to the server ends at any byte, OnMessage has got only messages that the server sent, in order. This is false: if the connection is closed in an orderly way within a message, OnMessage gets the part that has come as if it were the message. This is the only exception, it concerns the last call only, and after an error (reset, timeout) it does not happen.", "quantifier": "for all sequences of unfragmented messages, all places where the connection may end, both ways of ending", "why_tests_cant": "every place in every stream", "anchors": ["websocket/wshandle.go:read"]}
{"id": "C259", "title": "Pings are answered, and nothing else is", "statement": "Every ping of the server before its close frame is answered by one pong with the same bytes, in order; nothing else is written by the reader but the close frame at the end. Whatever bytes a server sends, pongs have at most 125 bytes, OnMessage is called at most once for two bytes received, with at most 32 MB each time and no more bytes in all than came, and a masked frame ends the connection with status 1002.", "quantifier": "for all legal sequences of frames; for all byte strings", "why_tests_cant": "every sequence of frames and every byte string of a hostile server", "anchors": ["websocket/wshandle.go:read", "websocket/wshandle.go:Close"]}
{"id": "C260", "title": "A Bloom filter used by many goroutines stays within its memory and never hangs", "statement": "However many goroutines call Add and Contains of one BloomFilter, and in whatever order their accesses to memory come: the filter never has more than two of its three arrays, except while a call that has the mutex is exchanging them; no two calls are inside the mutex; a call that has not returned can go on, or the one that has the mutex can; and a call takes at most 11 steps for each hash function and 12, whatever others do.", "quantifier": "for all configurations, numbers of goroutines, calls and interleavings of their memory accesses, over any number of generations", "why_tests_cant": "every interleaving of any number of calls", "anchors": ["cache/bloom.go:BloomFilter.getBitIndex", "cache/bloom.go:BloomFilter.Add", "cache/bloom.go:BloomFilter.Contains"]}
{"id": "C261", "title": "Recent items are found while others use the Bloom filter", "statement": "An item whose Add has returned is found by every Contains that begins later, until more than expectedItems further Adds have begun, whatever other goroutines do, if no two Adds run at the same time. This is false: a Contains that is held up between reading the count and testing the array, until two generations later, makes an array anew and drops the one with the recent items. It holds if no Contains lasts while expectedItems Adds begin.", "quantifier": "for all configurations, numbers of goroutines calling Contains, calls and interleavings of their memory accesses, over any number of generations", "why_tests_cant": "every interleaving of any number of calls over any number of generations", "anchors": ["cache/bloom.go:BloomFilter.getBitIndex", "cache/bloom.go:BloomFilter.Add", "cache/bloom.go:BloomFilter.Contains"]}
{"id": "C262", "title": "Strings stay as they are when their bytes are lent as a slice", "statement": "fast.StringToSlice(s) gives the bytes of s without copying, with a capacity equal to its length. A string never changes and no operation on slices ends the program, whatever is done with the slice. As it is, this is so for programs that never write to the slice nor to a part of it and append nothing to such a part (appending to the slice itself makes a copy); a write changes s and every string cut from it, append(b[:n], x) is such a write, and with a literal both end the program.", "quantifier": "for all programs: all sequences of StringToSlice, conversions, cuts, concatenations, slicing, append (with any spare capacity) and assignments, on any literals", "why_tests_cant": "Which programs are safe is a statement about all sequences of operations; a test sees one sequence, and whether append writes in place depends on capacities.", "anchors": ["fast/fast.go:StringToSlice"]}
{"id": "C263", "title": "UUIDs of different processes", "statement": "No UUID that NewUUID returns in one process is returned in another one. As it is, this depends on the starts of the sequences and on the hash: two UUIDs are the same exactly if the sequence numbers agree in 62 bits and the hash values in 60; processes whose ranges of sequence numbers do not meet share no UUID, whatever the hash; and if the starts in a set S and the functions that give the hash values are equally likely, the chance that n calls and m calls share a UUID is at most n·m / (|S|·2^60).", "quantifier": "for all starts, all numbers of calls, all interleavings of the calls in each process, all hash values; the chance is counted over all functions from sequence numbers to hash values and all starts of any set", "why_tests_cant": "A collision has a chance far below what tests can see, and the bound counts over all hash functions.", "anchors": ["uuid/uuid.go:NewUUID", "uuid/uuid.go:localbase.uniq", "uuid/uuid.go:localbase.slice33", "uuid/uuid.go:newBase"]}
{"id": "C264", "title": "LimitHashMap with float32 keys finds a value exactly under equal keys", "statement": "For float32 keys, equal keys find the same value, and Get(k) returns a value only if it was put under a key equal to k. As it is: the hash is the key converted to float64, which keeps the number; two keys share an entry exactly if they are the same bits, or NaNs that differ in the quiet bit only. So the statement holds for every key but the zeros (0 == -0, found apart) and NaN (equal to nothing, found); without NaN every history is that of a map with eviction by age per segment.", "quantifier": "for all float32 keys (all 2^32 bit patterns, pairs of them), all value types, capacities, segment numbers and histories", "why_tests_cant": "Pairs of 2^32 keys, among them subnormal numbers, infinities and NaNs, in unbounded histories.", "anchors": ["hashmap/limithashmap.go:NewLimitHashMapWithSegment", "hashmap/limithashmap.go:LimitHashMap.Get", "hashmap/limithashmap.go:LimitHashMap.Put"]}
{"id": "C265", "title": "A function that defers util.Recover lets no panic out", "statement": "A function with defer util.Recover(&err) lets no panic out and returns the panic as its error. As it is: as the first statement it does so whatever the rest does (own panics, panics of functions called, of later deferred calls); with nil instead of &err the panic is hidden and err stays as it was; a call deferred before it runs afterwards and may panic, since it sees the error; called in a deferred closure, or not deferred, it does nothing. Anywhere in a function, what follows the defer is for the rest no more than an assignment to err.", "quantifier": "for all functions: all nestings of statements, calls, deferred closures and panics", "why_tests_cant": "All control flows of defer, panic and recover; a test shows single ones.", "anchors": ["util/encode.go:Recover", "lock/lock.go:recoverpanic", "fastio/util.go:recoverable", "cache/bloom.go:recoverPanic", "websocket/wshandle.go:recoverable"]}
{"id": "C266", "title": "The bytes of a UUID are lent", "statement": "A UUID keeps its text whatever a program does with UUIDs and their Bytes(). As it is, Bytes() lends the UUID's own array: a UUID changes exactly by writing through a slice of it (also by append to a shortened slice, which can make the version other than 4); whatever is done with other UUIDs, their bytes and copies leaves it alone; it always has 16 bytes; append(u.Bytes(), xs...) with something to append is a copy and changes no UUID, with nothing to append it is none; writing one byte changes the text exactly if the byte changes.", "quantifier": "for all programs of NewUUID, Parse, Bytes, slicing, writing and append, in any order and number, also with operations that panic and are recovered", "why_tests_cant": "All sequences of slice operations; a test tries single ones, and the aliasing through the room of a slice is easily missed.", "anchors": ["uuid/uuid.go:Bytes", "uuid/uuid.go:NewUUID", "uuid/uuid.go:Parse", "uuid/uuid.go:String", "uuid/uuid.go:Version"]}
{"id": "C267", "title": "Keys made with Concat", "statement": "Concat gives its strings one after the other and nothing else, and different parts give different strings. As it is, the second does not hold (\"ab\",\"c\" and \"a\",\"bc\"), not even for as many parts, none empty; it holds if the parts have the same lengths one by one, and if every part is followed by a byte that occurs in none.", "quantifier": "for all lists of strings, of any number and length", "why_tests_cant": "All pairs of argument lists; a test compares single ones.", "anchors": ["util/encode.go:Concat"]}
{"id": "C268", "title": "What a Bloom filter says about its memory", "statement": "BloomFilter.String gives the numbers of the filter as it was made, and as bytes the memory of its bit arrays. As it is, the bytes are an upper bound after every history of calls (also with no hash function, no word or no expected item), half of them are in use in a new filter, and from the time that as many items were added as the filter is made for they are exact for ever.", "quantifier": "for all hash functions, sizes, and histories of Add and Contains one after the other", "why_tests_cant": "All histories; the arrays come and go with the number of items added, a test sees single moments.", "anchors": ["cache/bloom.go:String", "cache/bloom.go:getBitIndex", "cache/bloom.go:Add", "cache/bloom.go:Contains"]}
