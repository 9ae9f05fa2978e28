{
 "claims": [
  {
   "property": "C01",
   "status": "proved",
   "theorems": [
    "Gofer.Props.Base58.C01_base58_roundtrip"
   ],
   "note": "for every uint64"
  },
  {
   "property": "C02",
   "status": "proved",
   "theorems": [
    "Gofer.Props.Base58.C02_base58_injective",
    "Gofer.Props.Base58.C02_base58_denotes",
    "Gofer.Props.Base58.C02_base58_canonical",
    "Gofer.Props.Base58.C02_base58_order"
   ],
   "note": "numeral of the value, canonical form, length bound, order"
  },
  {
   "property": "C03",
   "status": "proved",
   "theorems": [
    "Gofer.Props.Base58.C03_base58_accepts",
    "Gofer.Props.Base58.C03_base58_value",
    "Gofer.Props.Base58.C03_base58_reject",
    "Gofer.Props.Base58.C03_base58_reencode",
    "Gofer.Props.Base58.C03_base58_overflow_wraps"
   ],
   "note": "exact accept set, value modulo 2^64, exact re-encode condition, wrap witness"
  },
  {
   "property": "C04",
   "status": "proved",
   "theorems": [
    "Gofer.Props.Num.C04_int64_denotes",
    "Gofer.Props.Num.C04_int32_denotes",
    "Gofer.Props.Num.C04_int16_denotes",
    "Gofer.Props.Num.C04_int64_roundtrip",
    "Gofer.Props.Num.C04_int32_roundtrip",
    "Gofer.Props.Num.C04_int16_roundtrip",
    "Gofer.Props.Num.C04_bytes64_roundtrip",
    "Gofer.Props.Num.C04_bytes32_roundtrip",
    "Gofer.Props.Num.C04_bytes16_roundtrip"
   ],
   "note": ""
  },
  {
   "property": "C05",
   "status": "proved",
   "theorems": [
    "Gofer.Props.Num.C05_int64_short",
    "Gofer.Props.Num.C05_int32_short",
    "Gofer.Props.Num.C05_int16_short",
    "Gofer.Props.Num.C05_int64_long",
    "Gofer.Props.Num.C05_int32_long",
    "Gofer.Props.Num.C05_int16_long"
   ],
   "note": ""
  },
  {
   "property": "C06",
   "status": "proved",
   "theorems": [
    "Gofer.Props.Num.C06_int64_unsigned_order",
    "Gofer.Props.Num.C06_int64_signed_order",
    "Gofer.Props.Num.C06_int64_mixed_sign"
   ],
   "note": "also the reversed order across signs"
  },
  {
   "property": "C07",
   "status": "proved",
   "theorems": [
    "Gofer.Props.Num.C07_intArray_roundtrip",
    "Gofer.Props.Num.C07_bytesToIntArray_values",
    "Gofer.Props.Num.C07_bytesToIntArray_trailing",
    "Gofer.Props.Num.C07_intArray_elements"
   ],
   "note": "encoding/binary's fast path is a library model"
  },
  {
   "property": "C08",
   "status": "proved",
   "theorems": [
    "Gofer.Props.Crc8.C08_crc8_is_remainder",
    "Gofer.Props.Crc8.C08_byte_poly_injective",
    "Gofer.Props.Crc8.C08_crc8_chain",
    "Gofer.Props.Crc8.C08_crc8_append"
   ],
   "note": "remainder in GF(2)[x] (Mathlib polynomials)"
  },
  {
   "property": "C09",
   "status": "proved",
   "theorems": [
    "Gofer.Props.Crc8.C09_crc8_linear",
    "Gofer.Props.Crc8.C09_crc8_undetected_iff",
    "Gofer.Props.Crc8.C09_crc8_burst",
    "Gofer.Props.Crc8.C09_crc8_odd",
    "Gofer.Props.Crc8.C09_crc8_two_bits",
    "Gofer.Props.Crc8.C09_crc8_two_bits_sharp"
   ],
   "note": "exact undetected set, bursts, odd errors, two-bit errors with sharp bound"
  },
  {
   "property": "C10",
   "status": "proved",
   "theorems": [
    "Gofer.Props.Map.C10_map_refines",
    "Gofer.Props.Map.C10_mapL_refines",
    "Gofer.Props.Map.C10_put_over_nil_reports_absent",
    "Gofer.Props.Map.C10_range_prefix",
    "Gofer.Props.Map.C10_range_full"
   ],
   "note": "Every history of Put/Del/Get/Has on Map and MapL refines a partial function; the boolean returned by Put is false over a stored nil interface value (shown by a witness). Range for every visiting order and callback."
  },
  {
   "property": "C11",
   "status": "proved",
   "theorems": [
    "Gofer.Props.Map.C11_mapL_len_sequential",
    "Gofer.Props.Map.C11_mapL_len_quiescent",
    "Gofer.Props.Map.C11_mapL_len_can_be_negative",
    "Gofer.Props.Map.C11_mapL_len_error"
   ],
   "note": "All interleavings of the two-step Put/Del; the in-flight error is characterised and a negative Len is witnessed."
  },
  {
   "property": "C12",
   "status": "proved",
   "theorems": [
    "Gofer.Props.TreeMap.C12_treeMap_refines",
    "Gofer.Props.TreeMap.C12_treeMap_iteration"
   ],
   "note": "google/btree is modelled as an ordered list (library); keys from any linear order."
  },
  {
   "property": "C13",
   "status": "proved",
   "theorems": [
    "Gofer.Props.LinkedHashMap.C13_limit"
   ],
   "note": "Any limit, any history."
  },
  {
   "property": "C14",
   "status": "proved",
   "theorems": [
    "Gofer.Props.LinkedHashMap.C14_linkedHashMap_refines",
    "Gofer.Props.LinkedHashMap.C14_put_spec"
   ],
   "note": "Pointer-level container/list model refined to a recency list."
  },
  {
   "property": "C15",
   "status": "partial",
   "theorems": [
    "Gofer.Props.LinkedHashMap.C15_loadOrStore_refuted",
    "Gofer.Props.LinkedHashMap.C15_claim_false",
    "Gofer.Props.LinkedHashMap.C15_loadOrStore_partial"
   ],
   "note": "The claim is false: LoadOrStore replaces the stored value (witness and negation proved). Proved part: it returns the existing value and whether it was present."
  },
  {
   "property": "C16",
   "status": "proved",
   "theorems": [
    "Gofer.Props.LinkedHashMap.C16_iterate",
    "Gofer.Props.LinkedHashMap.C16_iterate_deleting",
    "Gofer.Props.LinkedHashMap.C16_delete_ahead_truncates"
   ],
   "note": "Both directions, any number of Next calls, any choice of deletions of returned entries; deleting the entry ahead truncates the iteration (witness)."
  },
  {
   "property": "C17",
   "status": "partial",
   "theorems": [
    "Gofer.Props.LimitMap.C17_claim_false",
    "Gofer.Props.LimitMap.C17_capacity_partial",
    "Gofer.Props.LimitMap.C17_bound_reached"
   ],
   "note": "False as stated: C+1 entries are kept (negation proved, bound max(C+1,1) proved and shown tight for every C)."
  },
  {
   "property": "C18",
   "status": "proved",
   "theorems": [
    "Gofer.Props.LimitMap.C18_limitMap_refines",
    "Gofer.Props.LimitMap.C18_put_spec"
   ],
   "note": "Full refinement; 'full' means more than C entries, see C17."
  },
  {
   "property": "C19",
   "status": "partial",
   "theorems": [
    "Gofer.Props.LimitHashMap.C19_claim_false",
    "Gofer.Props.LimitHashMap.C19_general_bound",
    "Gofer.Props.LimitHashMap.C19_capacity_partial"
   ],
   "note": "False if capacity < segments (64 entries with capacity 1); proved when capacity >= segments, and the general bound segs*max(cap/segs,1)."
  },
  {
   "property": "C20",
   "status": "proved",
   "theorems": [
    "Gofer.Props.LimitHashMap.C20_limitHashMap_refines",
    "Gofer.Props.LimitHashMap.C20_refines_on_hashes",
    "Gofer.Props.LimitHashMap.C20_hashUint_injective",
    "Gofer.Props.LimitHashMap.C20_hashInt_injective"
   ],
   "note": "Refinement for injective hashes; all integer hashes proved injective; general refinement on hashes."
  },
  {
   "property": "C21",
   "status": "partial",
   "theorems": [
    "Gofer.Props.LimitHashMap.C21_string_claim_false",
    "Gofer.Props.LimitHashMap.C21_same_hash_partial",
    "Gofer.Props.LimitHashMap.C21_injective"
   ],
   "note": "False for strings (explicit FNV-1a collision); proved for injective hashes; in general a returned value was put under a key with the same hash."
  },
  {
   "property": "C22",
   "status": "partial",
   "theorems": [
    "Gofer.Props.LimitHashMap.C22_refuted",
    "Gofer.Props.LimitHashMap.C22_put_over_nil_panics",
    "Gofer.Props.LimitHashMap.C22_put_then_get_partial"
   ],
   "note": "False: Get hides nil values and a second Put panics (witness, and panic proved for every such state); proved for non-nil values."
  },
  {
   "property": "C23",
   "status": "partial",
   "theorems": [
    "Gofer.Props.Consistenthash.C23_claim_false",
    "Gofer.Props.Consistenthash.C23_member_panic_witness",
    "Gofer.Props.Consistenthash.C23_getStr_panic_iff_partial",
    "Gofer.Props.Consistenthash.C23_getStr_member_partial",
    "Gofer.Props.Consistenthash.C23_getStr_total_partial",
    "Gofer.Props.Consistenthash.C23_nodes"
   ],
   "note": "False as stated (two witnesses: deleting the last node, and deleting a node that had taken over a member's points; both panic). Proved: exact panic condition, answers are members, totality without collisions."
  },
  {
   "property": "C24",
   "status": "proved",
   "theorems": [
    "Gofer.Props.Consistenthash.C24_get_successor",
    "Gofer.Props.Consistenthash.C24_getStr_successor",
    "Gofer.Props.Consistenthash.C24_getStr_exists"
   ],
   "note": "Any hash, any history, no collision hypothesis."
  },
  {
   "property": "C25",
   "status": "partial",
   "theorems": [
    "Gofer.Props.Consistenthash.C25_claim_false",
    "Gofer.Props.Consistenthash.C25_set_determines_partial",
    "Gofer.Props.Consistenthash.C25_add_idempotent"
   ],
   "note": "Fails only for the empty final node set (new ring answers absent, emptied ring panics). Idempotence of Add proved as equality of states."
  },
  {
   "property": "C26",
   "status": "proved",
   "theorems": [
    "Gofer.Props.Consistenthash.C26_add_minimal",
    "Gofer.Props.Consistenthash.C26_add_minimal_new"
   ],
   "note": "Any hash, no collision hypothesis, variadic Add."
  },
  {
   "property": "C27",
   "status": "partial",
   "theorems": [
    "Gofer.Props.Consistenthash.C27_del_minimal",
    "Gofer.Props.Consistenthash.C27_del_gone",
    "Gofer.Props.Consistenthash.C27_restore_claim_false",
    "Gofer.Props.Consistenthash.C27_restore_partial"
   ],
   "note": "First half proved in full. The restore half is false when the new node takes over a member's point (witness with the real CRC64); proved when its points are free."
  },
  {
   "property": "C28",
   "status": "proved",
   "theorems": [
    "Gofer.Props.Consistenthash.C28_getNextNode",
    "Gofer.Props.Consistenthash.C28_getNextNode_distinct"
   ],
   "note": "step > 0."
  },
  {
   "property": "C29",
   "status": "proved",
   "theorems": [
    "Gofer.Props.Consistenthash.C29_point_injective",
    "Gofer.Props.Consistenthash.C29_value_injective",
    "Gofer.Props.Consistenthash.C29_one_replica"
   ],
   "note": "From linearity and injectivity of the CRC register step."
  },
  {
   "property": "C30",
   "status": "partial",
   "theorems": [
    "Gofer.Props.Bloom.C30_no_false_negative_partial",
    "Gofer.Props.Bloom.C30_claim_false"
   ],
   "note": "Proved for every filter with a non-empty bit array and any hash functions. Refuted in the corner where the constructor computes 0 bits (e.g. NewBloomFilter(1, 0.9)): then Contains is always false."
  },
  {
   "property": "C31",
   "status": "proved",
   "theorems": [
    "Gofer.Props.Bloom.C31_contains_exact",
    "Gofer.Props.Bloom.C31_forgets",
    "Gofer.Props.Bloom.C31_empty"
   ],
   "note": "Exact characterisation of Contains for every history, hash functions, k, words, E > 0 (the constructor forces k >= 1)."
  },
  {
   "property": "C32",
   "status": "partial",
   "theorems": [
    "Gofer.Props.Bloom.C32_claim_false",
    "Gofer.Props.Bloom.C32_disjoint_words_partial"
   ],
   "note": "Refuted as stated: lost update of the unsynchronised word read-modify-write. Proved when different goroutines touch different words."
  },
  {
   "property": "C33",
   "status": "proved",
   "theorems": [
    "Gofer.Props.Lru.C33_capacity",
    "Gofer.Props.Lru.C33_size",
    "Gofer.Props.Lru.C33_unlimited",
    "Gofer.Props.Lru.C33_negative"
   ],
   "note": "groupcache/lru modelled from its published source as a library. M > 0, M = 0 and the corner M < 0."
  },
  {
   "property": "C34",
   "status": "proved",
   "theorems": [
    "Gofer.Props.Lru.C34_lru_refines",
    "Gofer.Props.Lru.C34_spec"
   ],
   "note": "Full refinement to the recency list for every history, nil keys and nil values included; comparable non-NaN keys."
  },
  {
   "property": "C35",
   "status": "proved",
   "theorems": [
    "Gofer.Props.Aes.C35_roundtrip",
    "Gofer.Props.Aes.C35_length",
    "Gofer.Props.Aes.C35_aesEncrypter",
    "Gofer.Props.AesReal.C35_aes_lawful",
    "Gofer.Props.AesReal.C35_real"
   ],
   "note": "AES, MD5, SHA-256 are parameters; of AES only dec(enc(b)) = b on 16-byte blocks is used, which is proved of AES-256 as in FIPS 197. CBC modelled block by block, slices with capacity and aliasing."
  },
  {
   "property": "C36",
   "status": "partial",
   "theorems": [
    "Gofer.Props.Aes.C36_claim_false",
    "Gofer.Props.Aes.C36_panic_iff_partial",
    "Gofer.Props.Aes.C36_input_unchanged"
   ],
   "note": "Refuted (empty input panics). Proved: the exact panic condition and the exact result otherwise; the caller's memory is untouched."
  },
  {
   "property": "C37",
   "status": "partial",
   "theorems": [
    "Gofer.Props.Aes.C37_claim_false",
    "Gofer.Props.Aes.C37_no_room_partial",
    "Gofer.Props.Aes.C37_room_partial"
   ],
   "note": "Refuted: a slice with spare capacity for the padding is encrypted in place. Proved: no change without room, and the exact effect with room."
  },
  {
   "property": "C38",
   "status": "proved",
   "theorems": [
    "Gofer.Props.KeyBean.C38_roundtrip",
    "Gofer.Props.KeyBean.C38_nil_user",
    "Gofer.Props.KeyBean.C38_reader",
    "Gofer.Props.KeyBean.C38_unknown_fields",
    "Gofer.Props.KeyBean.C38_truncated"
   ],
   "note": "Round trip for every bean, order and trailing bytes; full specification of the reader on encodings of arbitrary structs; unknown fields irrelevant; truncation and nil users rejected. Sizes within the protocol limit. The Thrift compact protocol is modelled as a library."
  },
  {
   "property": "C39",
   "status": "partial",
   "theorems": [
    "Gofer.Props.KeyStore.C39_claim_false",
    "Gofer.Props.KeyStore.C39_maps_partial",
    "Gofer.Props.KeyStore.C39_fresh",
    "Gofer.Props.KeyStore.C39_hash_format",
    "Gofer.Props.KeyStore.C39_only_digest"
   ],
   "note": "Refuted: a file holding the byte 0 decodes to a bean with nil maps and Put panics. Proved for every file that loads without nil maps (in particular an empty file, an undecodable file); passwords matter only through their digest."
  },
  {
   "property": "C40",
   "status": "partial",
   "theorems": [
    "Gofer.Props.KeyStore.C40_claim_false",
    "Gofer.Props.KeyStore.C40_restart_partial",
    "Gofer.Props.KeyStore.C40_everything_lost_partial",
    "Gofer.Props.KeyStore.C40_reader_partial"
   ],
   "note": "Refuted for every compressor that keeps data back: after any history with a write, a restart finds all maps empty (util.Zlib returns the stream before Close). The reader restores complete streams."
  },
  {
   "property": "C41",
   "status": "partial",
   "theorems": [
    "Gofer.Props.KeyStore.C41_claim_false",
    "Gofer.Props.KeyStore.C41_prefix_partial",
    "Gofer.Props.KeyStore.C41_all_lost"
   ],
   "note": "Refuted: after Truncate the file is empty, for every old and new contents. A crash leaves the old file or a prefix of the new."
  },
  {
   "property": "C42",
   "status": "partial",
   "theorems": [
    "Gofer.Props.Compress.C42_claim_false",
    "Gofer.Props.Compress.C42_zlib_roundtrip_partial",
    "Gofer.Props.Compress.C42_gzip_roundtrip_partial",
    "Gofer.Props.Compress.C42_zlibLevel_partial",
    "Gofer.Props.Compress.C42_utilZlib_loses_partial",
    "Gofer.Props.Compress.C42_zlibLevel_invalid"
   ],
   "note": "Refuted: util.Zlib takes the bytes before Close, so util.UnZlib returns a proper prefix without error; compress.ZlibLevel only flushes, so compress.UnZlib rejects its output. The other pairs are proved for every lawful codec; snappy/zstd are single library calls and not modelled."
  },
  {
   "property": "C43",
   "status": "proved",
   "theorems": [
    "Gofer.Props.Uuid.C43_roundtrip",
    "Gofer.Props.Uuid.C43_injective"
   ],
   "note": ""
  },
  {
   "property": "C44",
   "status": "partial",
   "theorems": [
    "Gofer.Props.Uuid.C44_claim_false",
    "Gofer.Props.Uuid.C44_groups_partial",
    "Gofer.Props.Uuid.C44_dashes_partial"
   ],
   "note": "As stated it is false: the four separator bytes are not looked at. Proved: exactly the strings with five groups of hex digits parse; with '-' at the four places, exactly the UUID texts."
  },
  {
   "property": "C45",
   "status": "proved",
   "theorems": [
    "Gofer.Props.Uuid.C45_version_variant",
    "Gofer.Props.Uuid.C45_other_bits"
   ],
   "note": ""
  },
  {
   "property": "C46",
   "status": "partial",
   "theorems": [
    "Gofer.Props.Uuid.C46_claim_false",
    "Gofer.Props.Uuid.C46_variant_partial",
    "Gofer.Props.Uuid.C46_small_seq_partial"
   ],
   "note": "As stated it is false: Variant tests three bits. Proved: exactly when each value is returned; 1 for new UUIDs whose sequence number is below 2^61."
  },
  {
   "property": "C47",
   "status": "proved",
   "theorems": [
    "Gofer.Props.Uuid.C47_unique",
    "Gofer.Props.Uuid.C47_bound"
   ],
   "note": "Concurrent calls modelled as interleavings of the atomic add and the rest of the call; hash values arbitrary. C47_bound shows that 2^62 is the best bound."
  },
  {
   "property": "C48",
   "status": "partial",
   "theorems": [
    "Gofer.Props.Uuid.C48_claim_false",
    "Gofer.Props.Uuid.C48_equals_partial"
   ],
   "note": "As stated it is false: Equals compares the pointers. Proved: true exactly for the same object."
  },
  {
   "property": "C49",
   "status": "partial",
   "theorems": [
    "Gofer.Props.Buffer.C49_claim_false",
    "Gofer.Props.Buffer.C49_writes_partial",
    "Gofer.Props.Buffer.C49_since_reset",
    "Gofer.Props.Buffer.C49_nil",
    "Gofer.Props.Buffer.C49_nil_results",
    "Gofer.Props.Buffer.C49_new",
    "Gofer.Props.Buffer.C49_capacity"
   ],
   "note": "As stated it is false: WriteInt32 reports 8 bytes for 4. Proved over slices with capacity and backing arrays: contents always right, all other results right, contents are what was written since the last Reset."
  },
  {
   "property": "C50",
   "status": "partial",
   "theorems": [
    "Gofer.Props.Buffer.C50_claim_false",
    "Gofer.Props.Buffer.C50_read_partial",
    "Gofer.Props.Buffer.C50_drain_partial",
    "Gofer.Props.Buffer.C50_never_ends"
   ],
   "note": "As stated it is false: the read that reaches the end leaves the data, and io.EOF is never reported. Proved: exactly what a Read does, the drained prefix, and that a reader loop never ends."
  },
  {
   "property": "C51",
   "status": "partial",
   "theorems": [
    "Gofer.Props.Pool.C51_claim_false",
    "Gofer.Props.Pool.C51_exclusive_partial",
    "Gofer.Props.Pool.C51_put_partial",
    "Gofer.Props.Pool.C51_empty_partial"
   ],
   "note": "As stated it is false: a second Free hands the buffer to two users. Proved: exclusive use if users give back only what they have; programs using Get and Put(&v) without copies always do; buffers handed out are empty in every run."
  },
  {
   "property": "C52",
   "status": "partial",
   "theorems": [
    "Gofer.Props.Pool.C52_claim_false",
    "Gofer.Props.Pool.C52_route_partial",
    "Gofer.Props.Pool.C52_route_large"
   ],
   "note": "As stated it is false: the comparison picks class 0 for every length. Proved: the class for every length and pool size, with int overflow."
  },
  {
   "property": "C53",
   "status": "proved",
   "theorems": [
    "Gofer.Props.Mmap.C53_disjoint",
    "Gofer.Props.Mmap.C53_data",
    "Gofer.Props.Mmap.C53_append_only",
    "Gofer.Props.Mmap.C53_negative_start"
   ],
   "note": "Any number of goroutines, any interleaving, start offset not negative. With a negative start offset NewMMAP succeeds and the first Append panics (C53_negative_start)."
  },
  {
   "property": "C54",
   "status": "partial",
   "theorems": [
    "Gofer.Props.Mmap.C54_append",
    "Gofer.Props.Mmap.C54_claim_false",
    "Gofer.Props.Mmap.C54_writeAt_partial",
    "Gofer.Props.Mmap.C54_panic_iff",
    "Gofer.Props.Mmap.C54_negative_moves_offset",
    "Gofer.Props.Mmap.C54_frame"
   ],
   "note": "Append is proved in full. For WriteAt the claim is false as stated: an offset near the largest int overflows the check and panics, a negative offset panics and may move the append offset. C54_panic_iff gives the panics exactly; C54_writeAt_partial covers the rest."
  },
  {
   "property": "C55",
   "status": "partial",
   "theorems": [
    "Gofer.Props.Mmap.C55_claim_false",
    "Gofer.Props.Mmap.C55_range_partial",
    "Gofer.Props.Mmap.C55_panic_iff",
    "Gofer.Props.Mmap.C55_windows"
   ],
   "note": "False as stated for an empty write at the end of a file of whole pages (index panic); proved otherwise, with the panics characterised. The Windows variant is exact but panics on every empty write; the Solaris variant flushes nothing of the mapping."
  },
  {
   "property": "C56",
   "status": "proved",
   "theorems": [
    "Gofer.Props.Fastio.C56_offset",
    "Gofer.Props.Fastio.C56_stays"
   ],
   "note": "Every interleaving of any number of Write/WriteSync calls, any queue capacity, bufio spilling at any time, callers of WriteSync reusing their slices; also that the data stays there in every later execution, even with I/O errors."
  },
  {
   "property": "C57",
   "status": "proved",
   "theorems": [
    "Gofer.Props.Fastio.C57_atomic",
    "Gofer.Props.Fastio.C57_complete"
   ],
   "note": "Same executions."
  },
  {
   "property": "C58",
   "status": "partial",
   "theorems": [
    "Gofer.Props.Fastio.C58_claim_false",
    "Gofer.Props.Fastio.C58_queue_partial",
    "Gofer.Props.Fastio.C58_sync_partial"
   ],
   "note": "False as stated (C58_claim_false): a Write made between the moment the writing call finds the queue empty and the moment it sets ioend returns at once and its data stays in the queue. Proved: the exact condition (queue empty), and that the next WriteSync made after the Write returned brings it to the file."
  },
  {
   "property": "C59",
   "status": "proved",
   "theorems": [
    "Gofer.Props.Lock.C59_keys",
    "Gofer.Props.Lock.C59_exclusive",
    "Gofer.Props.Lock.C59_progress"
   ],
   "note": "Any number of mutexes, every int64 key (also negative), any number of goroutines, Lock/TryLock/Unlock. Also: what blocks a call, TryLock never waits, holders can unlock."
  },
  {
   "property": "C60",
   "status": "proved",
   "theorems": [
    "Gofer.Props.Lock.C60_exclusive",
    "Gofer.Props.Lock.C60_progress"
   ],
   "note": "Every hash function; RWMutex as a library model with announced writers."
  },
  {
   "property": "C61",
   "status": "proved",
   "theorems": [
    "Gofer.Props.Lock.C61_limit",
    "Gofer.Props.Lock.C61_timeout",
    "Gofer.Props.Lock.C61_counts"
   ],
   "note": "Every limit; counters modulo 2^64."
  },
  {
   "property": "C62",
   "status": "proved",
   "theorems": [
    "Gofer.Props.Await.C62_value",
    "Gofer.Props.Await.C62_once",
    "Gofer.Props.Await.C62_zero",
    "Gofer.Props.Await.C62_unblocked"
   ],
   "note": "All interleavings, any number of goroutines and ids."
  },
  {
   "property": "C63",
   "status": "partial",
   "theorems": [
    "Gofer.Props.Await.C63_claim_false",
    "Gofer.Props.Await.C63_partial",
    "Gofer.Props.Await.C63_partial_value"
   ],
   "note": "False as stated: a returning Wait removes the channel of the next Wait on the same id (C63_claim_false). Proved when the Waits for the id do not overlap."
  },
  {
   "property": "C64",
   "status": "proved",
   "theorems": [
    "Gofer.Props.FastAwait.C64_value",
    "Gofer.Props.FastAwait.C64_once",
    "Gofer.Props.FastAwait.C64_zero"
   ],
   "note": "All interleavings, any Bloom filter behaviour."
  },
  {
   "property": "C65",
   "status": "proved",
   "theorems": [
    "Gofer.Props.GoPool.C65_at_most_once"
   ],
   "note": "All runs, with Close and TurnOff."
  },
  {
   "property": "C66",
   "status": "partial",
   "theorems": [
    "Gofer.Props.GoPool.C66_claim_false",
    "Gofer.Props.GoPool.C66_limit_partial"
   ],
   "note": "The bound maxlimit is false (C66_claim_false: three functions run with limits 1 and 2). Proved: at most maxlimit+minlimit, and at most minlimit if maxlimit is not larger, without Close and TurnOff."
  },
  {
   "property": "C67",
   "status": "partial",
   "theorems": [
    "Gofer.Props.GoPool.C67_claim_false",
    "Gofer.Props.GoPool.C67_minlimit_zero",
    "Gofer.Props.GoPool.C67_all_run_partial"
   ],
   "note": "False: a Go whose TryLock comes between the dispatcher's last look and its Unlock leaves its function in the queue; minlimit 0 deadlocks. Proved for all runs without such a TryLock, Close and TurnOff, with positive limits."
  },
  {
   "property": "C68",
   "status": "partial",
   "theorems": [
    "Gofer.Props.GoPool.C68_claim_false",
    "Gofer.Props.GoPool.C68_dispatcher_panics",
    "Gofer.Props.GoPool.C68_close_partial"
   ],
   "note": "False: a worker may leave its select with a function in its channel; a dispatcher waiting for a worker panics on the closed pool and drops its function and the queue. Proved if the write of close comes at a calm moment."
  },
  {
   "property": "C69",
   "status": "partial",
   "theorems": [
    "Gofer.Props.Image.C69_crop_partial",
    "Gofer.Props.Image.C69_claim_false",
    "Gofer.Props.Image.C69_negative_width",
    "Gofer.Props.Image.C69_overflow",
    "Gofer.Props.Image.C69_origin"
   ],
   "note": "The claim is false: negative widths and overflowing sums are accepted, and images whose bounds do not start at 0 are cut in the wrong place (witnesses). Proved for images that start at 0 and numbers without overflow."
  },
  {
   "property": "C70",
   "status": "partial",
   "theorems": [
    "Gofer.Props.Image.C70_never_enlarges_partial",
    "Gofer.Props.Image.C70_claim_false"
   ],
   "note": "False for modes 1 and 5 with one side 0 (witness); proved for every other mode with every request, and for modes 1 and 5 with both sides given; sides up to 2^31, float64 rounding modelled."
  },
  {
   "property": "C71",
   "status": "proved",
   "theorems": [
    "Gofer.Props.Image.C71_type"
   ],
   "note": "Table of magic numbers as independent specification; prefixes exclude each other."
  },
  {
   "property": "C72",
   "status": "proved",
   "theorems": [
    "Gofer.Props.Image.C72_quality",
    "Gofer.Props.Image.C72_png"
   ],
   "note": ""
  },
  {
   "property": "C73",
   "status": "proved",
   "theorems": [
    "Gofer.Props.Websocket.C73_error_stays",
    "Gofer.Props.Websocket.C73_send_fails",
    "Gofer.Props.Websocket.C73_send_returns",
    "Gofer.Props.Websocket.C73_send_before_close"
   ],
   "note": "A Send called before Close may still use the connection afterwards: C73_send_before_close."
  },
  {
   "property": "C74",
   "status": "partial",
   "theorems": [
    "Gofer.Props.Websocket.C74_callbacks_partial",
    "Gofer.Props.Websocket.C74_claim_false"
   ],
   "note": "False as claimed: goroutines of OnMessage may run after OnClose (C74_claim_false). All the rest is proved."
  },
  {
   "property": "C75",
   "status": "proved",
   "theorems": [
    "Gofer.Props.Websocket.C75_tls",
    "Gofer.Props.Websocket.C75_iff"
   ],
   "note": ""
  },
  {
   "property": "C76",
   "status": "proved",
   "theorems": [
    "Gofer.Props.Gosignal.C76_once"
   ],
   "note": ""
  },
  {
   "property": "C77",
   "status": "partial",
   "theorems": [
    "Gofer.Props.LimitHashMap.C77_float_zero_refuted",
    "Gofer.Props.LimitHashMap.C77_float_partial"
   ],
   "note": "False for 0.0 and -0.0; holds for all other equal keys."
  },
  {
   "property": "C78",
   "status": "partial",
   "theorems": [
    "Gofer.Props.Consistenthash.C78_claim_false",
    "Gofer.Props.Consistenthash.C78_order_matters_witness",
    "Gofer.Props.Consistenthash.C79_small_ids_injective"
   ],
   "note": "False: with the ECMA CRC64, replica 0 of node 1 and replica 1 of node 8025316695516917426 coincide. What holds is C29 and C79."
  },
  {
   "property": "C79",
   "status": "proved",
   "theorems": [
    "Gofer.Props.Consistenthash.C79_small_ids_injective",
    "Gofer.Props.Consistenthash.C79_collisionFree",
    "Gofer.Props.Consistenthash.C79_placement"
   ],
   "note": "Kernel-checked independence of the 16 images of the replica-index bits."
  },
  {
   "property": "C80",
   "status": "proved",
   "theorems": [
    "Gofer.Props.Aes.C80_equal_prefixes",
    "Gofer.Props.Aes.C80_injective"
   ],
   "note": ""
  },
  {
   "property": "C81",
   "status": "partial",
   "theorems": [
    "Gofer.Props.Compress.C81_claim_false",
    "Gofer.Props.Compress.C81_compress_partial",
    "Gofer.Props.Compress.C81_util_silent_partial"
   ],
   "note": "Refuted for util.UnZlib and util.UnGzip (errors dropped). Proved exactly for package compress."
  },
  {
   "property": "C82",
   "status": "partial",
   "theorems": [
    "Gofer.Props.KeyBean.C82_claim_false",
    "Gofer.Props.KeyBean.C82_complete_partial",
    "Gofer.Props.KeyBean.C82_sound_partial",
    "Gofer.Props.KeyBean.C82_not_symmetric"
   ],
   "note": "Refuted: a missing key compares like an empty string or nil user; Equals is not even symmetric. Exact if the receiver has no such values."
  },
  {
   "property": "C83",
   "status": "partial",
   "theorems": [
    "Gofer.Props.Uuid.C83_claim_false",
    "Gofer.Props.Uuid.C83_collision",
    "Gofer.Props.Uuid.C83_hash_partial"
   ],
   "note": "As stated it is false: Int64 consists of the hash only, with four bits overwritten. Proved: exactly when two calls have equal Int64, and a collision among any more than 2^60 UUIDs."
  },
  {
   "property": "C84",
   "status": "partial",
   "theorems": [
    "Gofer.Props.Buffer.C84_claim_false",
    "Gofer.Props.Buffer.C84_views_partial",
    "Gofer.Props.Buffer.C84_spare_capacity"
   ],
   "note": "As stated it is false: Reset and a write overwrite it. Proved for histories without Reset."
  },
  {
   "property": "C85",
   "status": "proved",
   "theorems": [
    "Gofer.Props.Mmap.C85_durable",
    "Gofer.Props.Mmap.C85_append_only",
    "Gofer.Props.Mmap.C85_append_not_durable"
   ],
   "note": "Unix msync variant; msync is trusted to put the mapped range on the disk."
  },
  {
   "property": "C86",
   "status": "proved",
   "theorems": [
    "Gofer.Props.Fastio.C86_order"
   ],
   "note": "Real-time order, every interleaving."
  },
  {
   "property": "C87",
   "status": "partial",
   "theorems": [
    "Gofer.Props.Fastio.C87_claim_false",
    "Gofer.Props.Fastio.C87_deadlock"
   ],
   "note": "False as stated for every queue capacity (C87_deadlock): Writes made while one call is about to set ioend are all acknowledged and fill the queue; the next one blocks in the send with cc > 0, so every later call takes the slow path and blocks as well: no call ever returns again and the file never changes."
  },
  {
   "property": "C88",
   "status": "partial",
   "theorems": [
    "Gofer.Props.Fastio.C88_claim_false",
    "Gofer.Props.Fastio.C88_dead",
    "Gofer.Props.Fastio.C88_lost",
    "Gofer.Props.Fastio.C88_fast_partial",
    "Gofer.Props.Fastio.C88_fast_error",
    "Gofer.Props.Fastio.C88_error_own",
    "Gofer.Props.Fastio.C88_offset_partial",
    "Gofer.Props.Fastio.C88_sequential"
   ],
   "note": "False as stated (C88_claim_false): a waiting WriteSync returns nil though Flush failed. After an error in the slow path the lock stays held for ever (C88_dead) and later Writes are acknowledged and lost (C88_lost). Proved: a call of the fast path reports its own failed write (C88_fast_error), errors come only from writes the call did itself (C88_error_own), and without error its data is in the file (C88_fast_partial); if writes fail in the fast path only, the data is at the returned offset, a beginning of it after an error (C88_offset_partial); calls that do not overlap are always in that case (C88_sequential). Without errors the claim is C56."
  },
  {
   "property": "C89",
   "status": "partial",
   "theorems": [
    "Gofer.Props.Fastio.C89_claim_false",
    "Gofer.Props.Fastio.C89_sync_partial"
   ],
   "note": "False for Write (C89_claim_false); proved for WriteSync."
  },
  {
   "property": "C90",
   "status": "partial",
   "theorems": [
    "Gofer.Props.Lock.C90_claim_false",
    "Gofer.Props.Lock.C90_num",
    "Gofer.Props.Lock.C90_str",
    "Gofer.Props.Lock.C90_partial"
   ],
   "note": "False as stated for every number of mutexes and every hash function: locks are striped, and a goroutine that holds key 0 and locks key muxNum waits for itself. Proved: only keys equal modulo the number of mutexes interfere."
  },
  {
   "property": "C91",
   "status": "partial",
   "theorems": [
    "Gofer.Props.Lock.C91_claim_false",
    "Gofer.Props.Lock.C91_high",
    "Gofer.Props.Lock.C91_low",
    "Gofer.Props.Lock.C91_partial"
   ],
   "note": "False as stated: Cc can return limit+1 and -1. Proved: the difference of the counters at one moment is the number of holders plus the Unlock calls in flight."
  },
  {
   "property": "C92",
   "status": "partial",
   "theorems": [
    "Gofer.Props.Await.C92_claim_false",
    "Gofer.Props.Await.C92_partial"
   ],
   "note": "False as stated: the timeout of one of two waiters on an id closes the shared channel and the other returns zero, nil (C92_claim_false). Proved when the Waits for the id do not overlap."
  },
  {
   "property": "C93",
   "status": "partial",
   "theorems": [
    "Gofer.Props.Await.C93_claim_false",
    "Gofer.Props.Await.C93_timeout",
    "Gofer.Props.Await.C93_error",
    "Gofer.Props.Await.C93_partial"
   ],
   "note": "False as stated in both directions (C93_claim_false, C93_timeout, C93_error). Proved for non-overlapping Waits and a single put: a waiter that returns without error returns that value."
  },
  {
   "property": "C94",
   "status": "partial",
   "theorems": [
    "Gofer.Props.Await.C94_claim_false",
    "Gofer.Props.Await.C94_partial",
    "Gofer.Props.FastAwait.C94_claim_fast_false",
    "Gofer.Props.FastAwait.C94_fast_partial"
   ],
   "note": "False as stated: with timeout <= 0 the context is ignored, in Await and FastAwait. Proved for timeout > 0."
  },
  {
   "property": "C95",
   "status": "proved",
   "theorems": [
    "Gofer.Props.FastAwait.C95_no_deadlock",
    "Gofer.Props.FastAwait.C95_others"
   ],
   "note": "In every reachable state."
  },
  {
   "property": "C96",
   "status": "partial",
   "theorems": [
    "Gofer.Props.FastAwait.C96_claim_false",
    "Gofer.Props.FastAwait.C96_serial_false",
    "Gofer.Props.FastAwait.C96_partial"
   ],
   "note": "False as stated: a second Wait replaces the channel of the first (C96_claim_false); false also for non-overlapping Waits, because a late CloseAndPut removes the channel of the next Wait (C96_serial_false). Proved when that call is the only CloseAndPut or Close for the id."
  },
  {
   "property": "C97",
   "status": "partial",
   "theorems": [
    "Gofer.Props.FastAwait.C97_claim_false",
    "Gofer.Props.FastAwait.C97_partial"
   ],
   "note": "False as stated: an id waited for before is in the filter, and CloseAndPut gives up at once (C97_claim_false). Proved for ids that are not waited for and not in the filter."
  },
  {
   "property": "C98",
   "status": "partial",
   "theorems": [
    "Gofer.Props.GoPool.C98_claim_false",
    "Gofer.Props.GoPool.C98_zero",
    "Gofer.Props.GoPool.C98_go_returns_partial"
   ],
   "note": "False: FuncLimit 0, minlimit 0, or the race of C67. Proved under the conditions of C67."
  },
  {
   "property": "C99",
   "status": "partial",
   "theorems": [
    "Gofer.Props.GoPool.C99_claim_false",
    "Gofer.Props.GoPool.C99_close_race",
    "Gofer.Props.GoPool.C99_panic_partial"
   ],
   "note": "False after TurnOff(true), and for a panic that races with Close. Proved without Close and TurnOff."
  },
  {
   "property": "C100",
   "status": "partial",
   "theorems": [
    "Gofer.Props.GoPool.C100_claim_false",
    "Gofer.Props.GoPool.C100_go_panic_partial"
   ],
   "note": "False: ten seconds after Close the queue is closed under a Go that is about to send. Proved until then."
  },
  {
   "property": "C101",
   "status": "partial",
   "theorems": [
    "Gofer.Props.GoPool.C101_claim_false",
    "Gofer.Props.GoPool.C101_unexecuted_partial"
   ],
   "note": "It can be -1. Proved: in a quiescent state of a pool without Close and TurnOff it is the number of accepted functions not begun."
  },
  {
   "property": "C102",
   "status": "proved",
   "theorems": [
    "Gofer.Props.GoPool.C102_put_never_blocks"
   ],
   "note": "Without Close and TurnOff, as stated."
  },
  {
   "property": "C103",
   "status": "partial",
   "theorems": [
    "Gofer.Props.GoPool.C103_spins",
    "Gofer.Props.GoPool.C103_claim_false",
    "Gofer.Props.GoPool.C103_dispatcher_ends_partial"
   ],
   "note": "False: the dispatcher can call itself for ever. Proved if the write of close comes at a calm moment."
  },
  {
   "property": "C104",
   "status": "partial",
   "theorems": [
    "Gofer.Props.Image.C104_box_partial",
    "Gofer.Props.Image.C104_claim_false"
   ],
   "note": "False when the box is more elongated the other way (400x100 into 200x90 gives 360x90); proved when the box is at least as elongated as the image or one side is within its bound."
  },
  {
   "property": "C105",
   "status": "proved",
   "theorems": [
    "Gofer.Props.Image.C105_ratio"
   ],
   "note": "Sides up to 2^25, float64 rounding modelled."
  },
  {
   "property": "C106",
   "status": "partial",
   "theorems": [
    "Gofer.Props.Image.C106_exact_partial",
    "Gofer.Props.Image.C106_claim_false"
   ],
   "note": "False: half of 234x54 is 116x27; proved to be at most one pixel short."
  },
  {
   "property": "C107",
   "status": "partial",
   "theorems": [
    "Gofer.Props.Image.C107_box_partial",
    "Gofer.Props.Image.C107_claim_false"
   ],
   "note": "ScaleLower proved; ScaleUpper may miss one row (7x3 over 35x15 gives 35x14), proved up to that."
  },
  {
   "property": "C108",
   "status": "partial",
   "theorems": [
    "Gofer.Props.Image.C108_limit_partial",
    "Gofer.Props.Image.C108_claim_false"
   ],
   "note": "False for lines (10000x1 with limit 100 gives 1000x1); proved for all results with both sides above 2, sides up to 2^16."
  },
  {
   "property": "C109",
   "status": "proved",
   "theorems": [
    "Gofer.Props.Image.C109_icons"
   ],
   "note": ""
  },
  {
   "property": "C110",
   "status": "partial",
   "theorems": [
    "Gofer.Props.Image.C110_gif_partial",
    "Gofer.Props.Image.C110_claim_false"
   ],
   "note": "False for thin GIFs (canvas height 0, frame height 1); proved when the new canvas is not empty."
  },
  {
   "property": "C111",
   "status": "partial",
   "theorems": [
    "Gofer.Props.Image.C111_format_partial",
    "Gofer.Props.Image.C111_claim_false",
    "Gofer.Props.Image.C111_names"
   ],
   "note": "False: unknown formats are ignored silently; all cases characterised."
  },
  {
   "property": "C112",
   "status": "partial",
   "theorems": [
    "Gofer.Props.Image.C112_webp_partial",
    "Gofer.Props.Image.C112_wrong",
    "Gofer.Props.Image.C112_claim_false"
   ],
   "note": "False: no AVIF file is recognised, every WAVE file is called webp; WebP files are recognised."
  },
  {
   "property": "C113",
   "status": "partial",
   "theorems": [
    "Gofer.Props.Image.C113_monotone_partial",
    "Gofer.Props.Image.C113_claim_false"
   ],
   "note": "False above 10 (100 gives the lowest quality); proved from 1 to 10."
  },
  {
   "property": "C114",
   "status": "proved",
   "theorems": [
    "Gofer.Props.Image.C114_not_empty"
   ],
   "note": "Sides and requests up to 2^31."
  },
  {
   "property": "C115",
   "status": "partial",
   "theorems": [
    "Gofer.Props.Image.C115_side_partial",
    "Gofer.Props.Image.C115_claim_false",
    "Gofer.Props.Image.C115_witnesses"
   ],
   "note": "False: 10x1000 for height 50 stays 10x1000, 234x54 for width 117 gives 116; proved when the other side keeps a pixel, up to one pixel for widths."
  },
  {
   "property": "C116",
   "status": "partial",
   "theorems": [
    "Gofer.Props.Websocket.C116_messages_partial",
    "Gofer.Props.Websocket.C116_claim_false"
   ],
   "note": "False as claimed: messages may be delivered out of order (C116_claim_false). Exactly-once is proved."
  },
  {
   "property": "C117",
   "status": "partial",
   "theorems": [
    "Gofer.Props.Websocket.C117_onError_partial",
    "Gofer.Props.Websocket.C117_claim_false"
   ],
   "note": "False as claimed: OnError may be given nil when Close is called (C117_claim_false)."
  },
  {
   "property": "C118",
   "status": "proved",
   "theorems": [
    "Gofer.Props.Websocket.C118_close_ends"
   ],
   "note": ""
  },
  {
   "property": "C119",
   "status": "proved",
   "theorems": [
    "Gofer.Props.Websocket.C119_no_mixing",
    "Gofer.Props.Websocket.C119_no_waiting"
   ],
   "note": ""
  },
  {
   "property": "C120",
   "status": "proved",
   "theorems": [
    "Gofer.Props.Gosignal.C120_swallowed"
   ],
   "note": ""
  },
  {
   "property": "C121",
   "status": "proved",
   "theorems": [
    "Gofer.Props.Rsa.C121_rsa_roundtrip"
   ],
   "note": "RSA arithmetic and PKCS#1 v1.5 padding modelled; PEM/DER decoding is a parameter."
  },
  {
   "property": "C122",
   "status": "partial",
   "theorems": [
    "Gofer.Props.Rsa.C122_claim_false",
    "Gofer.Props.Rsa.C122_silent_partial"
   ],
   "note": "False: bad PEM, parse errors and other key types give nil, nil (C122_claim_false). Proved: exactly these."
  },
  {
   "property": "C123",
   "status": "proved",
   "theorems": [
    "Gofer.Props.Rsa.C123_decrypt_accepts",
    "Gofer.Props.Rsa.C123_decrypt_short"
   ],
   "note": ""
  },
  {
   "property": "C124",
   "status": "proved",
   "theorems": [
    "Gofer.Props.Rsa.C124_too_long",
    "Gofer.Props.Rsa.C124_injective"
   ],
   "note": ""
  },
  {
   "property": "C125",
   "status": "proved",
   "theorems": [
    "Gofer.Props.Rsa.C125_which_key",
    "Gofer.Props.Rsa.C125_embedded_key"
   ],
   "note": "That the embedded keys are a pair is a hypothesis of C125_embedded_key."
  },
  {
   "property": "C126",
   "status": "proved",
   "theorems": [
    "Gofer.Props.Checksum.C126_crc32_burst",
    "Gofer.Props.Checksum.C126_crc32_two_bits",
    "Gofer.Props.Checksum.C126_crc32_odd_missed"
   ],
   "note": "hash/crc32 modelled as the table-driven IEEE register"
  },
  {
   "property": "C127",
   "status": "proved",
   "theorems": [
    "Gofer.Props.Checksum.C127_crc64_burst",
    "Gofer.Props.Checksum.C127_crc64_two_bits",
    "Gofer.Props.Checksum.C127_crc64_odd"
   ],
   "note": "hash/crc64 modelled as the table-driven register with the ECMA polynomial"
  },
  {
   "property": "C128",
   "status": "proved",
   "theorems": [
    "Gofer.Props.Checksum.C128_fnv_two_bytes",
    "Gofer.Props.Checksum.C128_fnv32_collision"
   ],
   "note": "hash/fnv New32a/New64a modelled from the Go library"
  },
  {
   "property": "C129",
   "status": "proved",
   "theorems": [
    "Gofer.Props.AesCbc.C129_encrypt_standard",
    "Gofer.Props.AesCbc.C129_decrypt_standard"
   ],
   "note": "AES, SHA-256, MD5 are parameters; digest lengths and aesDec∘aesEnc = id assumed"
  },
  {
   "property": "C130",
   "status": "proved",
   "theorems": [
    "Gofer.Props.AesCbc.C130_malleable"
   ],
   "note": ""
  },
  {
   "property": "C131",
   "status": "proved",
   "theorems": [
    "Gofer.Props.Fastio.C131_window",
    "Gofer.Props.Fastio.C131_lost"
   ],
   "note": ""
  },
  {
   "property": "C132",
   "status": "proved",
   "theorems": [
    "Gofer.Props.Rand.C132_range",
    "Gofer.Props.Rand.C132_unbiased"
   ],
   "note": "math/rand Intn modelled; the generator is a parameter"
  },
  {
   "property": "C133",
   "status": "proved",
   "theorems": [
    "Gofer.Props.Rand.C133_unreachable",
    "Gofer.Props.Rand.C133_claim_false"
   ],
   "note": ""
  },
  {
   "property": "C134",
   "status": "proved",
   "theorems": [
    "Gofer.Props.Rand.C134_range",
    "Gofer.Props.Rand.C134_unbiased"
   ],
   "note": "crypto/rand.Int modelled; the random source is a parameter"
  },
  {
   "property": "C135",
   "status": "partial",
   "theorems": [
    "Gofer.Props.FastFile.C135_open",
    "Gofer.Props.FastFile.C135_claim_false",
    "Gofer.Props.FastFile.C135_new_partial"
   ],
   "note": "False for every handle made by Open: os.File refuses WriteAt in append mode (C135_open, C135_claim_false). Proved for handles made by New without O_APPEND."
  },
  {
   "property": "C136",
   "status": "partial",
   "theorems": [
    "Gofer.Props.FastFile.C136_claim_false",
    "Gofer.Props.FastFile.C136_eof",
    "Gofer.Props.FastFile.C136_others_partial",
    "Gofer.Props.FastFile.C136_position"
   ],
   "note": "False: a handle made by Open never reads anything back that it or anybody wrote before (C136_eof, C136_claim_false). Proved exactly what is delivered: the bytes others appended since the handle was made or last wrote."
  },
  {
   "property": "C137",
   "status": "partial",
   "theorems": [
    "Gofer.Props.FastFile.C137_claim_false",
    "Gofer.Props.FastFile.C137_exact_partial",
    "Gofer.Props.FastFile.C137_alone_partial"
   ],
   "note": "False with two writing handles (C137_claim_false); the error is exactly the bytes given to other handles since opening (C137_exact_partial). Proved when no other handle writes."
  },
  {
   "property": "C138",
   "status": "proved",
   "theorems": [
    "Gofer.Props.FastFile.C138_readAt",
    "Gofer.Props.FastFile.C138_roundtrip",
    "Gofer.Props.FastFile.C138_past_end"
   ],
   "note": "Calls one after another; overlapping calls are C56-C58."
  },
  {
   "property": "C139",
   "status": "proved",
   "theorems": [
    "Gofer.Props.FastFile.C139_closed"
   ],
   "note": "Calls one after another."
  },
  {
   "property": "C140",
   "status": "partial",
   "theorems": [
    "Gofer.Props.FastFile.C140_claim_false",
    "Gofer.Props.FastFile.C140_wrong_offset",
    "Gofer.Props.FastFile.C140_inside_partial"
   ],
   "note": "False: WriteAt past the end and then WriteSync overwrites data, and with a Read in between returns a wrong offset (C140_claim_false, C140_wrong_offset). Proved as long as WriteAt stays inside the file."
  },
  {
   "property": "C141",
   "status": "partial",
   "theorems": [
    "Gofer.Props.MmapLife.C141_claim_false",
    "Gofer.Props.MmapLife.C141_leak_partial"
   ],
   "note": "False: the file is mapped before the start offset is checked, so an offset at or past the end leaks the mapping (C141_claim_false); proved to be exactly these offsets."
  },
  {
   "property": "C142",
   "status": "partial",
   "theorems": [
    "Gofer.Props.MmapLife.C142_claim_false",
    "Gofer.Props.MmapLife.C142_panic",
    "Gofer.Props.MmapLife.C142_crash",
    "Gofer.Props.MmapLife.C142_before_partial",
    "Gofer.Props.MmapLife.C142_quiet_partial",
    "Gofer.Props.MmapLife.C142_after_partial"
   ],
   "note": "False: Append after Close panics, Close during the copy of an Append kills the process (C142_panic, C142_crash). Proved: nothing of the kind before Unmap; no kill if no call is copying at Unmap; a call not past its slice expression at Unmap never succeeds later."
  },
  {
   "property": "C143",
   "status": "proved",
   "theorems": [
    "Gofer.Props.MmapLife.C143_close",
    "Gofer.Props.MmapLife.C143_append_only",
    "Gofer.Props.MmapLife.C143_unmap_not_durable"
   ],
   "note": "msync taken to work and not to fail."
  },
  {
   "property": "C144",
   "status": "partial",
   "theorems": [
    "Gofer.Props.MmapLife.C144_claim_false",
    "Gofer.Props.MmapLife.C144_solaris_partial"
   ],
   "note": "False: mmapSyncToDisk does nothing on Solaris (C144_claim_false, C144_solaris_partial). On Unix the statement is C85."
  },
  {
   "property": "C145",
   "status": "partial",
   "theorems": [
    "Gofer.Props.StrTime.C145_accepts_partial",
    "Gofer.Props.StrTime.C145_canonical",
    "Gofer.Props.StrTime.C145_unambiguous",
    "Gofer.Props.StrTime.C145_nineteen",
    "Gofer.Props.StrTime.C145_claim_false"
   ],
   "note": "The claim is false: several spaces, hours of one digit and fractions are taken. Proved instead: the exact set of strings taken, that each has one meaning, that every date of the layout is taken."
  },
  {
   "property": "C146",
   "status": "partial",
   "theorems": [
    "Gofer.Props.StrTime.C146_panic_partial",
    "Gofer.Props.StrTime.C146_claim_false"
   ],
   "note": "The claim is false without a time zone database (the error of LoadLocation is dropped). Proved instead: exactly when it panics and when it returns an error."
  },
  {
   "property": "C147",
   "status": "partial",
   "theorems": [
    "Gofer.Props.StrTime.C147_shows_partial",
    "Gofer.Props.StrTime.C147_gap",
    "Gofer.Props.StrTime.C147_late",
    "Gofer.Props.StrTime.C147_claim_false"
   ],
   "note": "The claim is false for times left out at the beginning of summer time. Proved for all times that clocks showed; the others are taken as an hour later; after 1991 the moment is exactly eight hours before UTC."
  },
  {
   "property": "C148",
   "status": "partial",
   "theorems": [
    "Gofer.Props.StrTime.C148_order_partial",
    "Gofer.Props.StrTime.C148_order_fixed",
    "Gofer.Props.StrTime.C148_claim_false"
   ],
   "note": "The claim is false around the beginning of summer time. Proved from 1991-09-15 01:00:00 on, and for all zones of one offset."
  },
  {
   "property": "C149",
   "status": "partial",
   "theorems": [
    "Gofer.Props.Post.C149_checked_partial",
    "Gofer.Props.Post.C149_unchecked",
    "Gofer.Props.Post.C149_claim_false",
    "Gofer.Props.PostScheme.C149_scheme",
    "Gofer.Props.PostScheme.C149_tls"
   ],
   "note": "The claim is false: for URLs that begin with https: (lower case) certificates are not checked. Proved: with such URLs certificates have no influence at all; with any others (HTTPS:, redirects from http:) every TLS server is checked."
  },
  {
   "property": "C150",
   "status": "partial",
   "theorems": [
    "Gofer.Props.Post.C150_answer_partial",
    "Gofer.Props.Post.C150_broken",
    "Gofer.Props.Post.C150_claim_false"
   ],
   "note": "The claim is false: the status is not looked at. Proved: the result is the whole body of the last response, never a broken one."
  },
  {
   "property": "C151",
   "status": "partial",
   "theorems": [
    "Gofer.Props.Post.C151_headers_partial",
    "Gofer.Props.Post.C151_claim_false",
    "Gofer.Props.Post.C151_order_witness"
   ],
   "note": "The claim is false for names that differ in case only (the order of the map decides). Proved for all maps whose names differ in more, in every order."
  },
  {
   "property": "C152",
   "status": "proved",
   "theorems": [
    "Gofer.Props.Post.C152_no_injection"
   ],
   "note": "From the checks of the library before a request goes out."
  },
  {
   "property": "C153",
   "status": "partial",
   "theorems": [
    "Gofer.Props.Post.C153_delivered_partial",
    "Gofer.Props.Post.C153_claim_false"
   ],
   "note": "The claim is false after 301, 302, 303 (a GET without data follows). Proved: the first request and every POST has exactly the data; all requests are POSTs unless a server answered with one of these."
  },
  {
   "property": "C154",
   "status": "partial",
   "theorems": [
    "Gofer.Props.Post.C154_returns_partial",
    "Gofer.Props.Post.C154_claim_false"
   ],
   "note": "The claim is false: no timeout. Proved: at most ten requests, and a call that does not return waits for a reply or the body of one."
  },
  {
   "property": "C155",
   "status": "proved",
   "theorems": [
    "Gofer.Props.Post.C155_closed"
   ],
   "note": "All ways out of Post3 and of the redirects of the library."
  },
  {
   "property": "C156",
   "status": "proved",
   "theorems": [
    "Gofer.Props.Linear.C156_limitMap_linearizable",
    "Gofer.Props.Linear.C156_at_rest"
   ],
   "note": "Statements inside the lock are single steps; RWMutex as specified by its documentation."
  },
  {
   "property": "C157",
   "status": "proved",
   "theorems": [
    "Gofer.Props.Linear.C157_lru_linearizable"
   ],
   "note": "Statements inside the lock are single steps; the groupcache/lru library is modelled from its source."
  },
  {
   "property": "C158",
   "status": "proved",
   "theorems": [
    "Gofer.Props.Linear.C158_treeMap_linearizable"
   ],
   "note": "Each callback of an iteration is a step of its own; callbacks do not call the map."
  },
  {
   "property": "C159",
   "status": "proved",
   "theorems": [
    "Gofer.Props.Linear.C159_consistenthash_linearizable"
   ],
   "note": "Statements inside the lock are single steps; replicas are added one step each."
  },
  {
   "property": "C160",
   "status": "partial",
   "theorems": [
    "Gofer.Props.Linear.C160_segments_linearizable",
    "Gofer.Props.Linear.C160_len_claim_false"
   ],
   "note": "Linearizable for Put, Get, Del, Contains and for what Clear and Len do to each segment. Missing, and false in the code: Len and Clear of several segments go one segment at a time; Len can return a number of entries the map never had."
  },
  {
   "property": "C161",
   "status": "partial",
   "theorems": [
    "Gofer.Props.LinkedConc.C161_claim_false",
    "Gofer.Props.LinkedConc.C161_explained_partial",
    "Gofer.Props.LinkedConc.C161_linearizable_partial",
    "Gofer.Props.LinkedConc.C161_at_rest"
   ],
   "note": "False in the code as soon as Get is used: it takes no mutex, so it sees a Put over the limit between its two effects; with limit 1 one goroutine finds the new and then the old entry. Proved: every history is explained when such a Put has two effects with only Gets in between; without Get it is linearizable; at rest the bound holds. The data race on the pointer t.m between Get and Clear is taken as an atomic word. Iterators are left out."
  },
  {
   "property": "C162",
   "status": "partial",
   "theorems": [
    "Gofer.Props.LinkedIter.C162_iterators_exact",
    "Gofer.Props.LinkedIter.C162_claim_false",
    "Gofer.Props.LinkedIter.C162_cleared",
    "Gofer.Props.LinkedIter.C162_never_ends",
    "Gofer.Props.LinkedIter.C162_calm_partial"
   ],
   "note": "The claim that Next returns only entries of the map is refuted; exact semantics of all histories (C162_iterators_exact) and completeness of calm iterations are proved."
  },
  {
   "property": "C163",
   "status": "proved",
   "theorems": [
    "Gofer.Props.BTree.C163_degree",
    "Gofer.Props.BTree.C163_refines",
    "Gofer.Props.BTree.C163_iteration",
    "Gofer.Props.BTree.C163_depth"
   ],
   "note": "google/btree v1.1.3 is modelled statement by statement (nodes, split, steal, merge, iterate) from the library's published source; it is not in /repo."
  },
  {
   "property": "C164",
   "status": "partial",
   "theorems": [
    "Gofer.Props.BTree.C164_claim_false",
    "Gofer.Props.BTree.C164_nan_get",
    "Gofer.Props.BTree.C164_nan_put",
    "Gofer.Props.BTree.C164_nan_del",
    "Gofer.Props.BTree.C164_partial"
   ],
   "note": "The claim is false for NaN keys (C164_claim_false; C164_nan_get, C164_nan_put and C164_nan_del say what happens in every non-empty map). C164_partial is the positive part: histories without NaN keys."
  },
  {
   "property": "C165",
   "status": "proved",
   "theorems": [
    "Gofer.Props.Race.C165_limitMap",
    "Gofer.Props.Race.C165_lruCache",
    "Gofer.Props.Race.C165_treeMap",
    "Gofer.Props.Race.C165_consistenthash",
    "Gofer.Props.Race.C165_limitHashMap",
    "Gofer.Props.Race.C165_storeAdmin"
   ],
   "note": "Code modelled as sequences of accesses with branches and loops; the callback of Ascend and Descend does not use the map; library structures (list, btree, lru) are one location each."
  },
  {
   "property": "C166",
   "status": "partial",
   "theorems": [
    "Gofer.Props.Race.C166_claim_false",
    "Gofer.Props.Race.C166_only_pointer_partial",
    "Gofer.Props.Race.C166_without_clear_partial",
    "Gofer.Props.Race.C166_without_get_partial"
   ],
   "note": "The claim is false (Get against Clear); the only race, and none without Clear or without Get."
  },
  {
   "property": "C167",
   "status": "partial",
   "theorems": [
    "Gofer.Props.Race.C167_mapL_false",
    "Gofer.Props.Race.C167_limitLock_false",
    "Gofer.Props.Race.C167_claim_false",
    "Gofer.Props.Race.C167_mapL_partial",
    "Gofer.Props.Race.C167_limitLock_partial"
   ],
   "note": "The claim is false for Len and Cc; without them there is no race."
  },
  {
   "property": "C168",
   "status": "partial",
   "theorems": [
    "Gofer.Props.Race.C168_claim_false",
    "Gofer.Props.Race.C168_contains_false",
    "Gofer.Props.Race.C168_segment_false",
    "Gofer.Props.Race.C168_count_partial"
   ],
   "note": "The claim is false for Add/Add, Add/Contains and the change of segment; the counter is safe."
  },
  {
   "property": "C169",
   "status": "partial",
   "theorems": [
    "Gofer.Props.Race.C169_claim_false",
    "Gofer.Props.Race.C169_send_partial"
   ],
   "note": "The claim is false for the field err; the connection is safe."
  },
  {
   "property": "C170",
   "status": "partial",
   "theorems": [
    "Gofer.Props.Race.C170_go_false",
    "Gofer.Props.Race.C170_claim_false",
    "Gofer.Props.Race.C170_rest_partial"
   ],
   "note": "The claim is false for tnum (even with Go alone) and close; the other fields are safe."
  },
  {
   "property": "C171",
   "status": "proved",
   "theorems": [
    "Gofer.Props.RWLock.C171_limitMap",
    "Gofer.Props.RWLock.C171_lruCache",
    "Gofer.Props.RWLock.C171_treeMap",
    "Gofer.Props.RWLock.C171_consistenthash",
    "Gofer.Props.RWLock.C171_limitHashMap",
    "Gofer.Props.RWLock.C171_storeAdmin",
    "Gofer.Props.RWLock.C171_linkedHashMap"
   ],
   "note": "Mutexes with Go's preference for waiting writers; every call takes one mutex at a time."
  },
  {
   "property": "C172",
   "status": "partial",
   "theorems": [
    "Gofer.Props.RWLock.C172_claim_false",
    "Gofer.Props.RWLock.C172_read_in_callback",
    "Gofer.Props.RWLock.C172_write_in_callback",
    "Gofer.Props.RWLock.C172_readers_partial"
   ],
   "note": "The claim is refuted: writing in a callback always blocks, reading may; proved for callbacks that read while nobody writes."
  },
  {
   "property": "C173",
   "status": "partial",
   "theorems": [
    "Gofer.Props.MapConc.C173_claim_false",
    "Gofer.Props.MapConc.C173_mapL_partial",
    "Gofer.Props.MapConc.C173_map"
   ],
   "note": "Refuted for MapL with Len (it can answer -1); proved for Map and for MapL without Len. The operations of sync.Map are atomic here, steps of its algorithm in C231; Range is in C232."
  },
  {
   "property": "C174",
   "status": "partial",
   "theorems": [
    "Gofer.Props.ImageTr.C174_claim_false",
    "Gofer.Props.ImageTr.C174_picture_partial",
    "Gofer.Props.ImageTr.C174_degrees",
    "Gofer.Props.ImageTr.C174_grey",
    "Gofer.Props.ImageTr.C174_laws"
   ],
   "note": "Refuted for Rotate above 2^53; proved for |Rotate| <= 9e15, with the library's pixel operations modelled; the grey function is shown to be a correct rounding of the luminance."
  },
  {
   "property": "C175",
   "status": "proved",
   "theorems": [
    "Gofer.Props.ImageTr.C175_same_size",
    "Gofer.Props.ImageTr.C175_small",
    "Gofer.Props.ImageTr.C175_filter"
   ],
   "note": "For every picture with at least one pixel."
  },
  {
   "property": "C176",
   "status": "proved",
   "theorems": [
    "Gofer.Props.ImageTr.C176_never_enlarges"
   ],
   "note": "The library's resampling is assumed to give the size it is asked for, and blurring to keep it (Sized)."
  },
  {
   "property": "C177",
   "status": "proved",
   "theorems": [
    "Gofer.Props.ImageTr.C177_cropAnchor",
    "Gofer.Props.ImageTr.C177_cropSide",
    "Gofer.Props.ImageTr.C177_scale",
    "Gofer.Props.ImageTr.C177_pixels",
    "Gofer.Props.ImageTr.C177_size"
   ],
   "note": "Carries C69, C107, C108 through the whole of Encode; the library's resampling is assumed to give the size it is asked for (Sized)."
  },
  {
   "property": "C178",
   "status": "proved",
   "theorems": [
    "Gofer.Props.AwaitLeak.C178_await",
    "Gofer.Props.AwaitLeak.C178_fastAwait"
   ],
   "note": "Channels made by calling the exported Get directly are not part of the executions; nothing but a Wait or Close of the id removes those."
  },
  {
   "property": "C179",
   "status": "partial",
   "theorems": [
    "Gofer.Props.Gif.C179_claim_false",
    "Gofer.Props.Gif.C179_screen",
    "Gofer.Props.Gif.C179_hides",
    "Gofer.Props.Gif.C179_redBlue",
    "Gofer.Props.Gif.C179_kept_partial",
    "Gofer.Props.Gif.C179_pixels_partial"
   ],
   "note": "False as stated, twice. The screen of the result is the union of the frames, not the screen of the source (C179_screen). Each frame becomes a full frame in its own palette, so a frame whose palette has no transparent colour hides all earlier frames (C179_hides, C179_redBlue). Proved: number of frames, delays, disposal, loops and palettes are kept; the size is kept when a frame covers the screen. With a library that changes nothing that needs no change, every frame shows its own pixels where it was."
  },
  {
   "property": "C180",
   "status": "partial",
   "theorems": [
    "Gofer.Props.RaceFastio.C180_claim_false",
    "Gofer.Props.RaceFastio.C180_ioend",
    "Gofer.Props.RaceFastio.C180_wc",
    "Gofer.Props.RaceFastio.C180_close",
    "Gofer.Props.RaceFastio.C180_offset_partial"
   ],
   "note": "False: wc is read plainly under the mutex and counted atomically outside it (C180_wc), ioend is read outside the mutex and written under it (C180_ioend), and two Closes write isClose (C180_close). Proved: there is no race on the offset, and none on the counter of calls."
  },
  {
   "property": "C181",
   "status": "proved",
   "theorems": [
    "Gofer.Props.RaceMmap.C181_mmap",
    "Gofer.Props.RaceMmap.C181_covered"
   ],
   "note": "C181_covered shows that the exception is needed: on a byte that a WriteAt covers there can be a race."
  },
  {
   "property": "C182",
   "status": "partial",
   "theorems": [
    "Gofer.Props.KeyStoreMany.C182_claim_false",
    "Gofer.Props.KeyStoreMany.C182_last_writer_partial",
    "Gofer.Props.KeyStoreMany.C182_one_store",
    "Gofer.Props.KeyStoreMany.C182_own_calls",
    "Gofer.Props.KeyStoreMany.C182_not_loaded"
   ],
   "note": "Refuted: two stores that loaded before either wrote overwrite each other. Proved: the file holds exactly what the last writer had; one store alone loses nothing; a store's answers depend on its own calls only; before Load every method panics."
  },
  {
   "property": "C183",
   "status": "partial",
   "theorems": [
    "Gofer.Props.KeyStoreHeap.C183_claim_false",
    "Gofer.Props.KeyStoreHeap.C183_record_kept",
    "Gofer.Props.KeyStoreHeap.C183_own_record_partial",
    "Gofer.Props.KeyStoreHeap.C183_write_through"
   ],
   "note": "Refuted: Get returns the store's own record, so writing to it changes the store. Proved: the store itself never changes a record it handed out; the claim holds if nobody writes to the record of that user while it is in the store; and every such write goes through to Get and to the file."
  },
  {
   "property": "C184",
   "status": "partial",
   "theorems": [
    "Gofer.Props.RaceUuid.C184_claim_false",
    "Gofer.Props.RaceUuid.C184_race_free_partial",
    "Gofer.Props.RaceUuid.C184_seq"
   ],
   "note": "Refuted: the call that takes the last of the 2^64 sequence numbers increments scale without synchronisation. Proved: no race in the first 2^63 calls; never one on the sequence number."
  },
  {
   "property": "C185",
   "status": "partial",
   "theorems": [
    "Gofer.Props.UuidNext.C185_claim_false",
    "Gofer.Props.UuidNext.C185_next_partial",
    "Gofer.Props.UuidNext.C185_window_partial"
   ],
   "note": "Refuted: the second half is a counter. Proved: u then v can come exactly if both are version 4 and the 62 free bits of the second half of v are those of u plus one; in an execution of k calls all second halves are within k of each other."
  },
  {
   "property": "C186",
   "status": "proved",
   "theorems": [
    "Gofer.Props.UuidNext.C186_decodes",
    "Gofer.Props.UuidNext.C186_same",
    "Gofer.Props.UuidNext.C186_length"
   ],
   "note": "From the model of base58 and of the UUID bytes."
  },
  {
   "property": "C187",
   "status": "partial",
   "theorems": [
    "Gofer.Props.OddKeys.C187_claim_false",
    "Gofer.Props.OddKeys.C187_unchanged_partial",
    "Gofer.Props.OddKeys.C187_removeMulti",
    "Gofer.Props.OddKeys.C187_linked_put",
    "Gofer.Props.OddKeys.C187_limit_lost"
   ],
   "note": "Refuted for LinkedHashMap: Put and LoadOrStore push the entry onto the list before the map panics; a later Put of an ordinary key panics too and the limit is exceeded for good. Proved for Map, MapL, LruCache, for LimitMap but RemoveMulti (which has then removed the keys before), and for the other methods of LinkedHashMap; the effects of the exceptions exactly."
  },
  {
   "property": "C188",
   "status": "partial",
   "theorems": [
    "Gofer.Props.OddKeys.C188_claim_false",
    "Gofer.Props.OddKeys.C188_unbounded",
    "Gofer.Props.OddKeys.C188_stuck",
    "Gofer.Props.OddKeys.C188_limit_partial",
    "Gofer.Props.OddKeys.C188_not_found"
   ],
   "note": "Refuted: entries under NaN are never found, so never removed; n Puts of NaN leave n entries in every LimitMap, for ever. Proved if NaN is never put."
  },
  {
   "property": "C189",
   "status": "partial",
   "theorems": [
    "Gofer.Props.OddKeys.C189_claim_false",
    "Gofer.Props.OddKeys.C189_range_partial",
    "Gofer.Props.OddKeys.C189_nil"
   ],
   "note": "Refuted: the assertion k.(K) panics on a nil key. Proved without nil keys; exactly what happens with one."
  },
  {
   "property": "C190",
   "status": "partial",
   "theorems": [
    "Gofer.Props.ImageCover.C190_claim_false",
    "Gofer.Props.ImageCover.C190_cover_partial",
    "Gofer.Props.ImageCover.C190_edges",
    "Gofer.Props.ImageCover.C190_one_bound"
   ],
   "note": "The claim is false: 234 x 54 over 117 x 27 becomes 116 x 27. Proved instead for all sizes and bounds: one side of the box is met exactly and the other covered, and only if box and image have exactly the same ratio one column may be missing; images not larger than the box on one side stay as they are; modes 2 and 4 are mode 3 with turned bounds; one bound stands for both."
  },
  {
   "property": "C191",
   "status": "partial",
   "theorems": [
    "Gofer.Props.ImageCover.C191_claim_false",
    "Gofer.Props.ImageCover.C191_thumbnail_partial",
    "Gofer.Props.ImageCover.C191_edges",
    "Gofer.Props.ImageCover.C191_one_bound"
   ],
   "note": "The claim is false: an upright image 100 x 200 for which 300 x 150 is asked keeps its height. Proved instead: the exact size in every other case, and the original size in that one; mode 5 without exception; mode 1 with one bound gives a square limited by that side only."
  },
  {
   "property": "C192",
   "status": "partial",
   "theorems": [
    "Gofer.Props.ReadFile.C192_claim_false",
    "Gofer.Props.ReadFile.C192_killed",
    "Gofer.Props.ReadFile.C192_special",
    "Gofer.Props.ReadFile.C192_snapshot_partial",
    "Gofer.Props.ReadFile.C192_bytes",
    "Gofer.Props.ReadFile.C192_alone",
    "Gofer.Props.ReadFile.C192_missing"
   ],
   "note": "The claim is false: a file overwritten in place during the call gives a mixture, and one that is shortened ends the process; files whose size is given as 0 are read as empty. Proved instead: if files are only replaced as a whole the result is a state of the file; if no file is made shorter every byte was at its place in the file at some moment and the process is never ended; a call left alone returns the contents."
  },
  {
   "property": "C193",
   "status": "partial",
   "theorems": [
    "Gofer.Props.KeyStoreDisk.C193_claim_false",
    "Gofer.Props.KeyStoreDisk.C193_memory",
    "Gofer.Props.KeyStoreDisk.C193_repair_partial",
    "Gofer.Props.KeyStoreDisk.C193_all_lost",
    "Gofer.Props.KeyStoreDisk.C193_short"
   ],
   "note": "False as stated (C193_claim_false): Write truncates first, so a failing write of one user loses all (C193_all_lost, C193_short), and the store goes on as if nothing had happened (C193_memory). Proved: one Put whose write goes well repairs the file, whatever failed before (C193_repair_partial, with a Faithful compressor; C40 is what happens with zlib). Missing: the time in between."
  },
  {
   "property": "C194",
   "status": "partial",
   "theorems": [
    "Gofer.Props.KeyStoreDisk.C194_claim_false",
    "Gofer.Props.KeyStoreDisk.C194_replaced",
    "Gofer.Props.KeyStoreDisk.C194_removed",
    "Gofer.Props.KeyStoreDisk.C194_restart_partial",
    "Gofer.Props.KeyStoreDisk.C194_damaged_kept",
    "Gofer.Props.KeyStoreDisk.C194_damaged_lost"
   ],
   "note": "False as stated (C194_claim_false): the running process writes to its open file, not to the one under the name, so after a rename (C194_replaced) or removal (C194_removed) nothing it does reaches the key file; an unreadable file gives an empty store without error (C194_damaged_kept) and the first Put overwrites it (C194_damaged_lost). Proved: a process started since the last foreign change saves what it holds (C194_restart_partial)."
  },
  {
   "property": "C195",
   "status": "partial",
   "theorems": [
    "Gofer.Props.Snappy.C195_roundtrip_partial",
    "Gofer.Props.Snappy.C195_claim_false",
    "Gofer.Props.Snappy.C195_accepts",
    "Gofer.Props.Snappy.C195_accepts_s2",
    "Gofer.Props.Snappy.C195_agree",
    "Gofer.Props.Snappy.C195_disagree",
    "Gofer.Props.Snappy.C195_truncated",
    "Gofer.Props.Snappy.C195_truncated_s2",
    "Gofer.Props.Snappy.C195_small",
    "Gofer.Props.Snappy.C195_undetected",
    "Gofer.Props.Snappy.C195_silent",
    "Gofer.Props.Snappy.C195_bound",
    "Gofer.Props.Snappy.C195_bomb",
    "Gofer.Props.Snappy.C195_announced"
   ],
   "note": "As stated false: Snappy has no checksum, so changed data bytes go unnoticed, and compress.UnSnappy accepts s2 repeats that util.SnappyDecode rejects. Proved: round trip of every block in both packages, inversion, truncation, agreement in one direction, size bounds and their absence."
  },
  {
   "property": "C196",
   "status": "partial",
   "theorems": [
    "Gofer.Props.KeyBeanInto.C196_roundtrip_partial",
    "Gofer.Props.KeyBeanInto.C196_claim_false",
    "Gofer.Props.KeyBeanInto.C196_same_success",
    "Gofer.Props.KeyBeanInto.C196_overlay",
    "Gofer.Props.KeyBeanInto.C196_error_touches"
   ],
   "note": "As stated false: maps that were nil when encoded leave the old ones in place, and an error leaves the bean partly overwritten. Proved: same success as decoding into a new bean, exact overlay, and the round trip where each map is non-nil in the encoded bean or nil in the old one."
  },
  {
   "property": "C197",
   "status": "partial",
   "theorems": [
    "Gofer.Props.BloomRate.C197_rate_partial",
    "Gofer.Props.BloomRate.C197_claim_false",
    "Gofer.Props.BloomRate.C197_fourteenfold",
    "Gofer.Props.BloomRate.C197_upper",
    "Gofer.Props.BloomRate.C197_lower",
    "Gofer.Props.BloomRate.C197_sizes"
   ],
   "note": "As stated false: a filter for 1000 items and one in 128 reaches more than fourteen times that rate, because two generations are looked at. Proved: general upper and lower bounds, and 4p while at most seven tenths of the expected items are in."
  },
  {
   "property": "C198",
   "status": "partial",
   "theorems": [
    "Gofer.Props.Json.C198_roundtrip_partial",
    "Gofer.Props.Json.C198_claim_false",
    "Gofer.Props.Json.C198_exact",
    "Gofer.Props.Json.C198_keys",
    "Gofer.Props.Json.C198_stable",
    "Gofer.Props.Json.C198_depth",
    "Gofer.Props.Json.C198_injective",
    "Gofer.Props.Json.C198_plain",
    "Gofer.Props.Json.C198_nil"
   ],
   "note": "Refuted in full: bytes that are no UTF-8 are replaced by U+FFFD without an error (keys may collide), and more than 10000 levels are written but not read. Proved for texts up to 10000 levels, with the exact result for all strings."
  },
  {
   "property": "C199",
   "status": "proved",
   "theorems": [
    "Gofer.Props.JsonDoc.C199_reads",
    "Gofer.Props.JsonDoc.C199_unique",
    "Gofer.Props.JsonDoc.C199_writes",
    "Gofer.Props.JsonDoc.C199_null",
    "Gofer.Props.JsonDoc.C199_last",
    "Gofer.Props.JsonDoc.C199_liberal",
    "Gofer.Props.JsonDoc.C199_numbers"
   ],
   "note": "Decoding succeeds with v exactly on the documents for v."
  },
  {
   "property": "C200",
   "status": "partial",
   "theorems": [
    "Gofer.Props.ImageAgain.C200_claim_false",
    "Gofer.Props.ImageAgain.C200_shrinks",
    "Gofer.Props.ImageAgain.C200_again_partial",
    "Gofer.Props.ImageAgain.C200_mode0_iff",
    "Gofer.Props.ImageAgain.C200_third",
    "Gofer.Props.ImageAgain.C200_pictures"
   ],
   "note": "False as stated: in mode 0 a picture may miss the box the first time (400 x 100 for 200 x 90 becomes 360 x 90, then 200 x 50), in mode 5 a box higher than wide turns the picture, which exchanges the sides the next time. Proved: modes 1 to 4 always, 0 and 5 under the stated conditions (for mode 0 exactly those); in every mode the third time changes nothing."
  },
  {
   "property": "C201",
   "status": "partial",
   "theorems": [
    "Gofer.Props.ImageAgain.C201_claim_false",
    "Gofer.Props.ImageAgain.C201_ignored",
    "Gofer.Props.ImageAgain.C201_fields_partial"
   ],
   "note": "False as stated: Encode never reads Quality and Colors. All other fields make a difference."
  },
  {
   "property": "C202",
   "status": "proved",
   "theorems": [
    "Gofer.Props.ImageAgain.C202_size",
    "Gofer.Props.ImageAgain.C202_untouched",
    "Gofer.Props.ImageAgain.C202_again"
   ],
   "note": "For codecs that keep pictures (hypothesis Lossless, shown to be satisfiable)."
  },
  {
   "property": "C203",
   "status": "proved",
   "theorems": [
    "Gofer.Props.Digest.C203_text",
    "Gofer.Props.Digest.C203_format"
   ],
   "note": "MD5 and SHA-1 are the definitions of RFC 1321 and FIPS 180-4, checked against published examples."
  },
  {
   "property": "C204",
   "status": "proved",
   "theorems": [
    "Gofer.Props.Digest.C204_tail",
    "Gofer.Props.Digest.C204_lengths",
    "Gofer.Props.Digest.C204_claim_false",
    "Gofer.Props.Digest.C204_newAes",
    "Gofer.Props.Digest.C204_spreads"
   ],
   "note": "By a published collision of one block, checked by evaluation, and the block structure of MD5; the contrary claim is refuted."
  },
  {
   "property": "C205",
   "status": "proved",
   "theorems": [
    "Gofer.Props.Digest.C205_md5",
    "Gofer.Props.Digest.C205_sha1",
    "Gofer.Props.Digest.C205_claim_false"
   ],
   "note": "The continuing function is given; the contrary claim is refuted."
  },
  {
   "property": "C206",
   "status": "proved",
   "theorems": [
    "Gofer.Props.AesReal.C206_silent",
    "Gofer.Props.AesReal.C206_wrong_password",
    "Gofer.Props.AesReal.C206_claim_false",
    "Gofer.Props.AesReal.C206_short",
    "Gofer.Props.AesReal.C206_hello"
   ],
   "note": "For every lawful block cipher, in particular AES-256; the contrary claim is refuted."
  },
  {
   "property": "C207",
   "status": "partial",
   "theorems": [
    "Gofer.Props.Gob.C207_exact_partial",
    "Gofer.Props.Gob.C207_unchanged_partial",
    "Gofer.Props.Gob.C207_again",
    "Gofer.Props.Gob.C207_claim_false"
   ],
   "note": "At full strength the claim is false: an empty slice comes back nil. Proved is what comes back of every value, and that exactly the plain values come back unchanged."
  },
  {
   "property": "C208",
   "status": "proved",
   "theorems": [
    "Gofer.Props.Gob.C208_panic",
    "Gofer.Props.Gob.C208_error",
    "Gofer.Props.Gob.C208_nil_element",
    "Gofer.Props.Gob.C208_succeeds",
    "Gofer.Props.Gob.C208_truncated",
    "Gofer.Props.Gob.C208_value_cut"
   ],
   "note": "All parts."
  },
  {
   "property": "C209",
   "status": "partial",
   "theorems": [
    "Gofer.Props.KeyPwd.C209_fits_partial",
    "Gofer.Props.KeyPwd.C209_right",
    "Gofer.Props.KeyPwd.C209_other",
    "Gofer.Props.KeyPwd.C209_claim_false",
    "Gofer.Props.KeyPwd.C209_unsalted"
   ],
   "note": "The passwords with the same MD5 fit. Refuted: known colliding blocks give two passwords that fit each other's record."
  },
  {
   "property": "C210",
   "status": "partial",
   "theorems": [
    "Gofer.Props.FileExist.C210_true_partial",
    "Gofer.Props.FileExist.C210_claim_false",
    "Gofer.Props.FileExist.C210_dangling",
    "Gofer.Props.FileExist.C210_who_asks"
   ],
   "note": "The exact meaning of the answer is proved. Refuted by a file in a directory that may not be searched; links that lead nowhere are not told of either."
  },
  {
   "property": "C211",
   "status": "proved",
   "theorems": [
    "Gofer.Props.Uuid32.C211_repeats",
    "Gofer.Props.Uuid32.C211_claim_false",
    "Gofer.Props.Uuid32.C211_same"
   ],
   "note": "A negative fact, for all hash functions."
  },
  {
   "property": "C212",
   "status": "proved",
   "theorems": [
    "Gofer.Props.PostWire.C212_one_request",
    "Gofer.Props.PostWire.C212_first"
   ],
   "note": "HTTP/1.1; redirected requests have canonical header names (hypothesis on the environment)."
  },
  {
   "property": "C213",
   "status": "partial",
   "theorems": [
    "Gofer.Props.PostWire.C213_arrive_partial",
    "Gofer.Props.PostWire.C213_claim_false",
    "Gofer.Props.PostWire.C213_own",
    "Gofer.Props.PostWire.C213_from",
    "Gofer.Props.PostWire.C213_cookies"
   ],
   "note": "Which entries arrive and where all fields come from is proved. Refuted by an entry Host."
  },
  {
   "property": "C214",
   "status": "partial",
   "theorems": [
    "Gofer.Props.LockOrder.C214_claim_false",
    "Gofer.Props.LockOrder.C214_self",
    "Gofer.Props.LockOrder.C214_num_partial",
    "Gofer.Props.LockOrder.C214_str_partial",
    "Gofer.Props.LockOrder.C214_reader_again"
   ],
   "note": "Refuted for the order of keys, for every number of mutexes (a goroutine waits for itself); proved for the order of mutexes, with any number of goroutines; a second RLock behind a waiting Lock deadlocks."
  },
  {
   "property": "C215",
   "status": "proved",
   "theorems": [
    "Gofer.Props.Proto.C215_back",
    "Gofer.Props.Proto.C215_refused",
    "Gofer.Props.Proto.C215_never_another",
    "Gofer.Props.Proto.C215_different",
    "Gofer.Props.Proto.C215_again",
    "Gofer.Props.Proto.C215_deep",
    "Gofer.Props.Proto.C215_claim_false"
   ],
   "note": "Marshal and Unmarshal with the protobuf library (v1.36.7, the fast path of internal/impl) modelled; without maps, oneofs, declared groups, required fields, extensions, closed enums. The wish that Unmarshal accepts whatever Marshal returns is refuted (strings that are not UTF-8)."
  },
  {
   "property": "C216",
   "status": "proved",
   "theorems": [
    "Gofer.Props.Proto.C216_after",
    "Gofer.Props.Proto.C216_concat"
   ],
   "note": "The same model; merging is the specification's."
  },
  {
   "property": "C217",
   "status": "proved",
   "theorems": [
    "Gofer.Props.Proto.C217_passes_on"
   ],
   "note": "The same model; the message written again below 2^63 bytes."
  },
  {
   "property": "C218",
   "status": "proved",
   "theorems": [
    "Gofer.Props.Blake2b.C218_rfc",
    "Gofer.Props.Blake2b.C218_length",
    "Gofer.Props.Blake2b.C218_no_stage"
   ],
   "note": "The implementation of the library (buffer, two-word counter, table in another order) is modelled and proved to compute the function of the RFC for every input below 2^63 bytes."
  },
  {
   "property": "C219",
   "status": "proved",
   "theorems": [
    "Gofer.Props.KeyStoreConc.C219_linearizable",
    "Gofer.Props.KeyStoreConc.C219_at_rest"
   ],
   "note": "Proved for stores whose loaded bean has no nil map (C39), with the change of the map, Truncate and Write as separate steps."
  },
  {
   "property": "C220",
   "status": "proved",
   "theorems": [
    "Gofer.Props.ProtoTypes.C220_retyped",
    "Gofer.Props.ProtoTypes.C220_number",
    "Gofer.Props.ProtoTypes.C220_kept",
    "Gofer.Props.ProtoTypes.C220_other_encoding",
    "Gofer.Props.ProtoTypes.C220_other_wire"
   ],
   "note": "Fields of other encodings (sint against int, fixed against varint) are read differently or not at all: C220_other_encoding, C220_other_wire."
  },
  {
   "property": "C221",
   "status": "proved",
   "theorems": [
    "Gofer.Props.ThriftStruct.C221_back",
    "Gofer.Props.ThriftStruct.C221_wire",
    "Gofer.Props.ThriftStruct.C221_cut"
   ],
   "note": "every generated struct type; generated code and compact protocol modelled from their published sources"
  },
  {
   "property": "C222",
   "status": "proved",
   "theorems": [
    "Gofer.Props.ThriftStruct.C222_read",
    "Gofer.Props.ThriftStruct.C222_refused"
   ],
   "note": "exact: read if readable, refused otherwise"
  },
  {
   "property": "C223",
   "status": "proved",
   "theorems": [
    "Gofer.Props.ThriftStruct.C223_doubles",
    "Gofer.Props.ThriftStruct.C223_prefix"
   ],
   "note": "the error of Write is dropped by TEncode"
  },
  {
   "property": "C224",
   "status": "proved",
   "theorems": [
    "Gofer.Props.ThriftStruct.C224_forgets",
    "Gofer.Props.ThriftStruct.C224_claim_false"
   ],
   "note": "the naive claim that a struct survives an older program is refuted"
  },
  {
   "property": "C225",
   "status": "partial",
   "theorems": [
    "Gofer.Props.ThriftStruct.C225_partial",
    "Gofer.Props.ThriftStruct.C225_claim_false",
    "Gofer.Props.ThriftStruct.C225_deep"
   ],
   "note": "refuted in full (65 levels); proved up to 64 levels"
  },
  {
   "property": "C226",
   "status": "proved",
   "theorems": [
    "Gofer.Props.RaceLock.C226_numlock",
    "Gofer.Props.RaceLock.C226_strlock",
    "Gofer.Props.RaceLock.C226_limit_one",
    "Gofer.Props.RaceLock.C226_other_key",
    "Gofer.Props.RaceLock.C226_limit_two"
   ],
   "note": "Programs as sequences of lock, unlock, read and write; TryLock that fails does nothing."
  },
  {
   "property": "C227",
   "status": "partial",
   "theorems": [
    "Gofer.Props.RaceHand.C227_claim_false",
    "Gofer.Props.RaceHand.C227_waits",
    "Gofer.Props.RaceHand.C227_put",
    "Gofer.Props.RaceHand.C227_await_partial",
    "Gofer.Props.RaceHand.C227_fast_partial"
   ],
   "note": "Refuted for FastAwait: words of the Bloom filter are read and written without synchronisation. Proved for Await and for FastAwait outside the filter's words."
  },
  {
   "property": "C228",
   "status": "proved",
   "theorems": [
    "Gofer.Props.RaceHand.C228_await",
    "Gofer.Props.RaceHand.C228_fastAwait"
   ],
   "note": "Objects are records written once before they are handed over. The Bloom filter of FastAwait is left out (C227)."
  },
  {
   "property": "C229",
   "status": "proved",
   "theorems": [
    "Gofer.Props.RaceHand.C229_map",
    "Gofer.Props.RaceHand.C229_box",
    "Gofer.Props.RaceHand.C229_linked"
   ],
   "note": "Objects are records written once before they are put in; what a mutex protects (C165) is one location."
  },
  {
   "property": "C230",
   "status": "proved",
   "theorems": [
    "Gofer.Props.RaceHand.C230_pool"
   ],
   "note": "What a function uses is a record; the start of a goroutine is a message on a channel."
  },
  {
   "property": "C231",
   "status": "proved",
   "theorems": [
    "Gofer.Props.SyncMap.C231_linearizable",
    "Gofer.Props.SyncMap.C231_progress"
   ],
   "note": "sync.Map is that of Go 1.23.2, the toolchain of go.mod, written from knowledge of its published source, which is not in the sandbox; Go 1.24 has another one. A callback's own calls on the map are those of another goroutine. MapL's counter is left to C173."
  },
  {
   "property": "C232",
   "status": "proved",
   "theorems": [
    "Gofer.Props.SyncMap.C232_range",
    "Gofer.Props.SyncMap.C232_once",
    "Gofer.Props.SyncMap.C232_claim_false"
   ],
   "note": "The last sentence is the refutation of the claim that Range is atomic."
  },
  {
   "property": "C233",
   "status": "proved",
   "theorems": [
    "Gofer.Props.Regexp.C233_finds",
    "Gofer.Props.Regexp.C233_runes",
    "Gofer.Props.Regexp.C233_one_meaning"
   ],
   "note": "Regular expressions of Go; unmodelled: Unicode classes by name, quoting with Q and E, named ASCII classes, named groups."
  },
  {
   "property": "C234",
   "status": "proved",
   "theorems": [
    "Gofer.Props.Regexp.C234_steps",
    "Gofer.Props.Regexp.C234_of_match"
   ],
   "note": "Steps of the search; parsing and compiling are not counted."
  },
  {
   "property": "C235",
   "status": "proved",
   "theorems": [
    "Gofer.Props.Regexp.C235_whole",
    "Gofer.Props.Regexp.C235_text",
    "Gofer.Props.Regexp.C235_claim_false",
    "Gofer.Props.Regexp.C235_claim_caret_false",
    "Gofer.Props.Regexp.C235_claim_text_false"
   ],
   "note": "With the refutations of the shorter forms."
  },
  {
   "property": "C236",
   "status": "proved",
   "theorems": [
    "Gofer.Props.Regexp.C236_no_utf8",
    "Gofer.Props.Regexp.C236_missing_paren",
    "Gofer.Props.Regexp.C236_extra_paren",
    "Gofer.Props.Regexp.C236_others",
    "Gofer.Props.Regexp.C236_claim_false"
   ],
   "note": "The claim that false means that nothing fits is refuted."
  },
  {
   "property": "C237",
   "status": "proved",
   "theorems": [
    "Gofer.Props.JsonStruct.C237_claim_false",
    "Gofer.Props.JsonStruct.C237_omitempty_nil",
    "Gofer.Props.JsonStruct.C237_roundtrip",
    "Gofer.Props.JsonStruct.C237_back",
    "Gofer.Props.JsonStruct.C237_stable",
    "Gofer.Props.JsonStruct.C237_injective"
   ],
   "note": "exact result for every value; the unrestricted round trip is refuted by a pointer to nil"
  },
  {
   "property": "C238",
   "status": "proved",
   "theorems": [
    "Gofer.Props.JsonStruct.C238_view",
    "Gofer.Props.JsonStruct.C238_added",
    "Gofer.Props.JsonStruct.C238_removed",
    "Gofer.Props.JsonStruct.C238_claim_false",
    "Gofer.Props.JsonStruct.C238_int"
   ],
   "note": "the view between two versions as a small relation; losing fields on rewriting is shown by a witness"
  },
  {
   "property": "C239",
   "status": "proved",
   "theorems": [
    "Gofer.Props.JsonStruct.C239_fields",
    "Gofer.Props.JsonStruct.C239_unknown",
    "Gofer.Props.JsonStruct.C239_order",
    "Gofer.Props.JsonStruct.C239_claim_false",
    "Gofer.Props.JsonStruct.C239_last",
    "Gofer.Props.JsonStruct.C239_null",
    "Gofer.Props.JsonStruct.C239_merge"
   ],
   "note": "documents by the grammar; that the last of several members counts is refuted for slices and proved for values that say all; null and repeated objects"
  },
  {
   "property": "C240",
   "status": "proved",
   "theorems": [
    "Gofer.Props.JsonStruct.C240_ok",
    "Gofer.Props.JsonStruct.C240_unique",
    "Gofer.Props.JsonStruct.C240_syntax",
    "Gofer.Props.JsonStruct.C240_type",
    "Gofer.Props.JsonStruct.C240_claim_false"
   ],
   "note": "no error iff document and fit; that nothing is stored on error is refuted"
  },
  {
   "property": "C241",
   "status": "proved",
   "theorems": [
    "Gofer.Props.Deflate.C241_zlib",
    "Gofer.Props.Deflate.C241_gzip",
    "Gofer.Props.Deflate.C241_else",
    "Gofer.Props.Deflate.C241_one_meaning",
    "Gofer.Props.Deflate.C241_every",
    "Gofer.Props.Deflate.C241_lawful"
   ],
   "note": "the readers of Go for deflate, zlib and gzip accept exactly the formats of the RFCs, with Go's choices where these leave some"
  },
  {
   "property": "C242",
   "status": "proved",
   "theorems": [
    "Gofer.Props.Deflate.C242_zlib_rest",
    "Gofer.Props.Deflate.C242_gzip_append",
    "Gofer.Props.Deflate.C242_gzip_rest"
   ],
   "note": "rests of zlib streams are ignored; gzip files may be concatenated, and nothing else may follow"
  },
  {
   "property": "C243",
   "status": "proved",
   "theorems": [
    "Gofer.Props.Deflate.C243_bound",
    "Gofer.Props.Deflate.C243_bound_utilUnGzip",
    "Gofer.Props.Deflate.C243_attained",
    "Gofer.Props.Deflate.C243_no_smaller"
   ],
   "note": "the factor 1032, and the streams that attain it"
  },
  {
   "property": "C244",
   "status": "partial",
   "theorems": [
    "Gofer.Props.Deflate.C244_zlib_partial",
    "Gofer.Props.Deflate.C244_gzip_partial",
    "Gofer.Props.Deflate.C244_member",
    "Gofer.Props.Deflate.C244_utilUnZlib",
    "Gofer.Props.Deflate.C244_utilUnZlib_header",
    "Gofer.Props.Deflate.C244_utilUnZlib_sum",
    "Gofer.Props.Deflate.C244_flushed",
    "Gofer.Props.Deflate.C244_utilUnGzip",
    "Gofer.Props.Deflate.C244_claim_false",
    "Gofer.Props.Deflate.C244_utilUnZlib_silent"
   ],
   "note": "compress.UnZlib notices every cut, compress.UnGzip all but those between members, the functions of util none after the header; the claim as stated is refuted"
  },
  {
   "property": "C245",
   "status": "proved",
   "theorems": [
    "Gofer.Props.GobType.C245_exact",
    "Gofer.Props.GobType.C245_fields",
    "Gofer.Props.GobType.C245_same",
    "Gofer.Props.GobType.C245_unchanged",
    "Gofer.Props.GobType.C245_processes",
    "Gofer.Props.GobType.C245_truncated"
   ],
   "note": "exact: Decode succeeds exactly if Fits, not Strangers and Came, and gives that value; descriptions of types included"
  },
  {
   "property": "C246",
   "status": "partial",
   "theorems": [
    "Gofer.Props.GobType.C246_claim_false",
    "Gofer.Props.GobType.C246_wider_partial",
    "Gofer.Props.GobType.C246_errors",
    "Gofer.Props.GobType.C246_changed_field",
    "Gofer.Props.GobType.C246_lost"
   ],
   "note": "that adding, removing and moving fields never makes Decode fail is false (no field left: C246_claim_false); with some field left it holds (C246_wider_partial), and the errors are exactly known (C246_errors)"
  },
  {
   "property": "C247",
   "status": "proved",
   "theorems": [
    "Gofer.Props.Resample.C247_colours",
    "Gofer.Props.Resample.C247_place",
    "Gofer.Props.Resample.C247_blocks"
   ],
   "note": "float64 arithmetic of resizeNearest modelled; sides up to 2^19 in the whole of Encode; ScaleUpper and ScaleLower always use Lanczos and are excluded"
  },
  {
   "property": "C248",
   "status": "partial",
   "theorems": [
    "Gofer.Props.Resample.C248_claim_false",
    "Gofer.Props.Resample.C248_shades_partial",
    "Gofer.Props.Resample.C248_opacity_partial",
    "Gofer.Props.Resample.C248_one_colour_partial",
    "Gofer.Props.Resample.C248_filters",
    "Gofer.Props.Resample.C248_four_partial"
   ],
   "note": "the claim for all filters is false (C248_claim_false); proved for filters that average: Box, Linear, Hermite and BSpline (C248_four_partial; the kernels of the last two become negative by rounding, which is accounted for) and any filter given as a function nowhere negative and positive up to 1/2 (Gaussian)"
  },
  {
   "property": "C249",
   "status": "proved",
   "theorems": [
    "Gofer.Props.Resample.C249_blur",
    "Gofer.Props.Resample.C249_local"
   ],
   "note": "the values of the kernel (math.Exp) are a parameter: nowhere negative, positive at 0"
  },
  {
   "property": "C250",
   "status": "proved",
   "theorems": [
    "Gofer.Props.Resample.C250_size",
    "Gofer.Props.Resample.C250_fill"
   ],
   "note": ""
  },
  {
   "property": "C251",
   "status": "partial",
   "theorems": [
    "Gofer.Props.LimitAny.C251_claim_false",
    "Gofer.Props.LimitAny.C251_holders_partial",
    "Gofer.Props.LimitAny.C251_limit_partial"
   ],
   "note": "false as stated (witness: Unlock after a timeout); proved: at most one more for each surplus Unlock, and the limit without them"
  },
  {
   "property": "C252",
   "status": "partial",
   "theorems": [
    "Gofer.Props.LimitAny.C252_unlock",
    "Gofer.Props.LimitAny.C252_claim_false",
    "Gofer.Props.LimitAny.C252_own_partial",
    "Gofer.Props.LimitAny.C252_cc"
   ],
   "note": "that the Unlock of a holder never waits is false after a surplus Unlock; proved without them; the rest proved in full"
  },
  {
   "property": "C253",
   "status": "partial",
   "theorems": [
    "Gofer.Props.GoPoolDepth.C253_claim_false",
    "Gofer.Props.GoPoolDepth.C253_open_pool",
    "Gofer.Props.GoPoolDepth.C253_closed_pool",
    "Gofer.Props.GoPoolDepth.C253_depth_partial"
   ],
   "note": "The claim is refuted: n+2 calls of Go leave n+2 frames in a pool that is never closed (C253_open_pool), and after Close three calls give any number of frames (C253_closed_pool). Proved: at most as many frames as calls of Go until the queue is closed. Sizes of frames and of the stack are not modelled."
  },
  {
   "property": "C254",
   "status": "partial",
   "theorems": [
    "Gofer.Props.MmapAgain.C254_claim_false",
    "Gofer.Props.MmapAgain.C254_sessions_partial"
   ],
   "note": "False for full files (C254_claim_false): NewMMAP refuses a start offset equal to the size. Everything else is proved for any number of sessions. Close is taken to succeed, the size of the file not to change."
  },
  {
   "property": "C255",
   "status": "partial",
   "theorems": [
    "Gofer.Props.MmapAgain.C255_claim_false",
    "Gofer.Props.MmapAgain.C255_same_mapping",
    "Gofer.Props.MmapAgain.C255_parts_partial"
   ],
   "note": "False as stated (C255_claim_false): two mappings from the same start hand out the same region. Proved: Appends through one mapping never overlap, a call whose region is alone finds its data, mappings with parts of their own do not disturb each other."
  },
  {
   "property": "C256",
   "status": "proved",
   "theorems": [
    "Gofer.Props.WsWire.C256_send",
    "Gofer.Props.WsWire.C256_frames"
   ],
   "note": "The library golang.org/x/net/websocket is not in /repo; its framing is modelled from its published source."
  },
  {
   "property": "C257",
   "status": "partial",
   "theorems": [
    "Gofer.Props.WsWire.C257_claim_false",
    "Gofer.Props.WsWire.C257_too_large",
    "Gofer.Props.WsWire.C257_whole_partial",
    "Gofer.Props.WsWire.C257_bytes_partial"
   ],
   "note": "False for fragmented messages and for messages longer than 32 MB (C257_claim_false, C257_too_large). The library golang.org/x/net/websocket is not in /repo; its framing is modelled from its published source."
  },
  {
   "property": "C258",
   "status": "partial",
   "theorems": [
    "Gofer.Props.WsWire.C258_claim_false",
    "Gofer.Props.WsWire.C258_cut_partial",
    "Gofer.Props.WsWire.C258_reset"
   ],
   "note": "False if the connection is closed in an orderly way within a message (C258_claim_false). The library golang.org/x/net/websocket is not in /repo; its framing is modelled from its published source."
  },
  {
   "property": "C259",
   "status": "proved",
   "theorems": [
    "Gofer.Props.WsWire.C259_pongs",
    "Gofer.Props.WsWire.C259_any_bytes",
    "Gofer.Props.WsWire.C259_masked"
   ],
   "note": "The library golang.org/x/net/websocket is not in /repo; its framing is modelled from its published source."
  },
  {
   "property": "C260",
   "status": "proved",
   "theorems": [
    "Gofer.Props.BloomConc.C260_two_arrays",
    "Gofer.Props.BloomConc.C260_mutex",
    "Gofer.Props.BloomConc.C260_progress",
    "Gofer.Props.BloomConc.C260_steps"
   ],
   "note": ""
  },
  {
   "property": "C261",
   "status": "partial",
   "theorems": [
    "Gofer.Props.BloomConc.C261_claim_false",
    "Gofer.Props.BloomConc.C261_recent_partial"
   ],
   "note": "False if a Contains is held up over two generations (C261_claim_false), and if Adds run at the same time (C32)."
  },
  {
   "property": "C262",
   "status": "partial",
   "theorems": [
    "Gofer.Props.Fast.C262_view",
    "Gofer.Props.Fast.C262_claim_false",
    "Gofer.Props.Fast.C262_append_false",
    "Gofer.Props.Fast.C262_careful_partial",
    "Gofer.Props.Fast.C262_write",
    "Gofer.Props.Fast.C262_literal"
   ],
   "note": "the claim for all programs is false (C262_claim_false, C262_append_false); proved for careful programs (C262_careful_partial), with the exact effect of writes (C262_write, C262_literal)"
  },
  {
   "property": "C263",
   "status": "partial",
   "theorems": [
    "Gofer.Props.UuidMany.C263_claim_false",
    "Gofer.Props.UuidMany.C263_same",
    "Gofer.Props.UuidMany.C263_apart_partial",
    "Gofer.Props.UuidMany.C263_one",
    "Gofer.Props.UuidMany.C263_chance_partial"
   ],
   "note": "the claim is false if hash values may agree (C263_claim_false); exact condition (C263_same), disjoint ranges of sequence numbers (C263_apart_partial), the bound for the chance over all hash functions and any set of starts (C263_chance_partial, C263_one); that maphash and math/rand behave like random choices is not proved"
  },
  {
   "property": "C264",
   "status": "partial",
   "theorems": [
    "Gofer.Props.Float32Key.C264_number",
    "Gofer.Props.Float32Key.C264_same",
    "Gofer.Props.Float32Key.C264_claim_false",
    "Gofer.Props.Float32Key.C264_nan",
    "Gofer.Props.Float32Key.C264_found_partial",
    "Gofer.Props.Float32Key.C264_refines"
   ],
   "note": "false for the zeros (C264_claim_false) and for NaN (C264_nan); all other keys: C264_found_partial; the exact condition in C264_same, the number kept in C264_number, histories without NaN in C264_refines"
  },
  {
   "property": "C265",
   "status": "partial",
   "theorems": [
    "Gofer.Props.Recover.C265_no_panic",
    "Gofer.Props.Recover.C265_error",
    "Gofer.Props.Recover.C265_silent",
    "Gofer.Props.Recover.C265_claim_false",
    "Gofer.Props.Recover.C265_not_direct",
    "Gofer.Props.Recover.C265_rest",
    "Gofer.Props.Recover.C265_plain_partial",
    "Gofer.Props.Recover.C265_last"
   ],
   "note": "false if calls were deferred before (C265_claim_false), in a closure or without defer (C265_not_direct); holds as the first statement (C265_no_panic, C265_error, C265_silent), without such calls (C265_plain_partial), and in general up to an assignment to err (C265_rest)"
  },
  {
   "property": "C266",
   "status": "partial",
   "theorems": [
    "Gofer.Props.UuidBytes.C266_claim_false",
    "Gofer.Props.UuidBytes.C266_own_partial",
    "Gofer.Props.UuidBytes.C266_sixteen",
    "Gofer.Props.UuidBytes.C266_write",
    "Gofer.Props.UuidBytes.C266_append",
    "Gofer.Props.UuidBytes.C266_slice"
   ],
   "note": "The claim is refuted (Bytes lends the array of the UUID); what holds: only slices of the UUID's own array change it, full append copies, effect of one write, the length. Slices with three indices and goroutines are not modelled."
  },
  {
   "property": "C267",
   "status": "partial",
   "theorems": [
    "Gofer.Props.Concat.C267_parts",
    "Gofer.Props.Concat.C267_claim_false",
    "Gofer.Props.Concat.C267_lengths_partial",
    "Gofer.Props.Concat.C267_marked_partial"
   ],
   "note": "Different parts can give the same string (refuted); it holds for parts of the same lengths and for parts with an end mark."
  },
  {
   "property": "C268",
   "status": "partial",
   "theorems": [
    "Gofer.Props.BloomString.C268_bound",
    "Gofer.Props.BloomString.C268_claim_false",
    "Gofer.Props.BloomString.C268_exact_partial"
   ],
   "note": "The bytes are an upper bound always and exact once expectedItems items were added; before that they are not (refuted). Calls one after the other; for many goroutines see C260."
  }
 ]
}
