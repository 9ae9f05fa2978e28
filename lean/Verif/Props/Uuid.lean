import Verif.Proof.Uuid

/-! # UUIDs: properties C43–C48, C83 -/
namespace Gofer.Props.Uuid
open Gofer.Uuid Gofer.Num Gofer.Spec.Uuid

/-- The UUID of the examples: bytes 0, 17, 34, …, 255. -/
def sample : Bytes := (List.range 16).map fun i => (17 * i).toUInt8

/-! ### C43 -/

/-- C43. `Parse(u.String())` is `u`, and `u.String()` is the 8-4-4-4-12 text of the bytes of `u` with lower-case
digits. -/
theorem C43_roundtrip (u : Bytes) (h : u.length = 16) :
    parse (text u) = some u ∧ TextOf (text u) u ∧ ∀ c ∈ text u, c = 45 ∨ IsLowerHex c := by
  have hg := text_grouped h
  have hs : Spells (hexEncode (slice u 0 4) ++ hexEncode (slice u 4 6) ++ hexEncode (slice u 6 8) ++ hexEncode (slice u 8 10) ++
      hexEncode (u.drop 10)) u := by
    simp only [← hexEncode_append]
    rw [slices h]
    exact spells_hexEncode u
  refine ⟨(parse_iff _ _).2 ⟨_, _, _, _, _, _, _, _, _, hg, hs⟩, ⟨_, _, _, _, _, hg, hs⟩, fun c hc => ?_⟩
  rw [hg.eq] at hc
  simp only [List.mem_append, List.mem_cons] at hc
  rcases hc with hc | hc | hc | hc | hc | hc | hc | hc | hc
  all_goals first
    | exact Or.inl hc
    | exact Or.inr (lower_hexEncode _ c hc)

example : sample.length = 16 ∧ text sample = "00112233-4455-6677-8899-aabbccddeeff".toUTF8.toList := by
  constructor <;> decide +kernel

/-- C43, no two UUIDs have the same text. -/
theorem C43_injective (u v : Bytes) (hu : u.length = 16) (hv : v.length = 16) (h : text u = text v) : u = v := by
  have h1 := (C43_roundtrip u hu).1
  rw [h, (C43_roundtrip v hv).1] at h1
  exact (Option.some.inj h1).symm

/-! ### C44 -/

/-- C44, as stated: only UUID texts parse. -/
def C44_claim : Prop := ∀ s u, parse s = some u → TextOf s u

/-- C44 is false: 36 zero digits, without a single separator, parse. -/
theorem C44_claim_false : ¬ C44_claim := by
  intro h
  obtain ⟨g1, g2, g3, g4, g5, hg, _⟩ := h (List.replicate 36 48) (List.replicate 16 0) (by decide +kernel)
  have := hg.eq
  have hm : (45 : UInt8) ∈ List.replicate 36 (48 : UInt8) := by rw [this]; simp
  rw [List.mem_replicate] at hm
  exact absurd hm.2 (by decide)

/-- C44, what holds: a string parses to `u` exactly if it is five groups of 8, 4, 4, 4 and 12 hexadecimal digits (of
either case) spelling `u`, with any single byte between the groups. Missing for C44: the separators are not looked at. -/
theorem C44_groups_partial (s u : Bytes) : parse s = some u ↔
    ∃ g1 g2 g3 g4 g5 s1 s2 s3 s4, Grouped s g1 g2 g3 g4 g5 s1 s2 s3 s4 ∧ Spells (g1 ++ g2 ++ g3 ++ g4 ++ g5) u :=
  parse_iff s u

/-- C44, what holds: a string with '-' at the four places parses exactly if it is a UUID text. -/
theorem C44_dashes_partial (s u : Bytes) (h8 : s.getD 8 0 = 45) (h13 : s.getD 13 0 = 45) (h18 : s.getD 18 0 = 45)
    (h23 : s.getD 23 0 = 45) : parse s = some u ↔ TextOf s u := by
  constructor
  · intro h
    have hl : s.length = 36 := by
      by_contra hne
      simp [parse, hne] at h
    have hg := grouped_of_length hl
    have hd : Spells _ u := (hexDecode_iff _ _).1 (by rw [parse, if_neg (by simpa using hl)] at h; exact h)
    rw [h8, h13, h18, h23] at hg
    exact ⟨_, _, _, _, _, hg, hd⟩
  · rintro ⟨g1, g2, g3, g4, g5, hg, hs⟩
    exact (parse_iff s u).2 ⟨_, _, _, _, _, _, _, _, _, hg, hs⟩

example : parse "00112233-4455-6677-8899-AAbbccddeeff".toUTF8.toList = some sample ∧
    parse "00112233-4455-6677-8899-AAbbccddeefg".toUTF8.toList = none := by constructor <;> decide +kernel

/-! ### C45 -/

/-- C45. For every hash value and every sequence number the new UUID is 16 bytes, has version 4, and the top two bits of
byte 8 are 1, 0 (the RFC 4122 variant). -/
theorem C45_version_variant (h64 seq : BitVec 64) : (mk h64 seq).length = 16 ∧ version (mk h64 seq) = 4 ∧
    ((mk h64 seq).getD 8 0).toNat / 64 = 2 := by
  obtain ⟨a0, a1, a2, a3, a4, a5, a6, a7, c0, c1, c2, c3, c4, c5, c6, c7, _, _, hm⟩ := mk_eq h64 seq
  rw [hm]
  refine ⟨rfl, ?_, ?_⟩
  · have h := mask0f a6
    simp only [version, List.getD_cons_succ, List.getD_cons_zero, UInt8.toNat_shiftRight, h]
    have : (4 : UInt8).toNat % 8 = 4 := rfl
    rw [this, Nat.shiftRight_eq_div_pow]
    omega
  · simp only [List.getD_cons_succ, List.getD_cons_zero, mask3f]
    omega

/-- C45, the other bits: the first eight bytes are the hash except for the high nibble of byte 6, the last eight the
sequence number except for the top two bits. -/
theorem C45_other_bits (h64 seq : BitVec 64) :
    (∀ i, i < 8 → i ≠ 6 → (mk h64 seq)[i]? = (int64ToBytes h64)[i]?) ∧
    ((mk h64 seq).getD 6 0).toNat % 16 = ((int64ToBytes h64).getD 6 0).toNat % 16 ∧
    (∀ i, 0 < i → i < 8 → (mk h64 seq)[8 + i]? = (int64ToBytes seq)[i]?) ∧
    ((mk h64 seq).getD 8 0).toNat % 64 = ((int64ToBytes seq).getD 0 0).toNat % 64 := by
  obtain ⟨a0, a1, a2, a3, a4, a5, a6, a7, c0, c1, c2, c3, c4, c5, c6, c7, hh, hq, hm⟩ := mk_eq h64 seq
  rw [hm, hh, hq]
  refine ⟨?_, ?_, ?_, ?_⟩
  · intro i hi h6
    match i, hi with
    | 0, _ | 1, _ | 2, _ | 3, _ | 4, _ | 5, _ | 7, _ => rfl
    | 6, _ => exact absurd rfl h6
  · simp only [List.getD_cons_succ, List.getD_cons_zero, mask0f]; omega
  · intro i h0 hi
    match i, hi with
    | 1, _ | 2, _ | 3, _ | 4, _ | 5, _ | 6, _ | 7, _ => rfl
    | 0, _ => omega
  · simp only [List.getD_cons_succ, List.getD_cons_zero, mask3f]; omega

example : mk 0xffffffffffffffff 0xffffffffffffffff =
    [255, 255, 255, 255, 255, 255, 0x4f, 255, 0xbf, 255, 255, 255, 255, 255, 255, 255] := by decide +kernel

/-! ### C46 -/

/-- C46, as stated: every UUID with variant bits 1, 0 is reported as RFC 4122. -/
def C46_claim : Prop := ∀ u : Bytes, u.length = 16 → (u.getD 8 0).toNat / 64 = 2 → variant u = 1

/-- C46 is false, even for UUIDs that `NewUUID` makes: with sequence number `0x20 <<< 56`, byte 8 is `0xa0`. -/
theorem C46_claim_false : ¬ C46_claim ∧ ∃ h64 seq, variant (mk h64 seq) = 0 := by
  refine ⟨fun h => ?_, 0, 0x2000000000000000, by decide +kernel⟩
  have := h (mk 0 0x2000000000000000) (by decide +kernel) (by decide +kernel)
  revert this
  decide +kernel

/-- C46, what holds: `Variant` is 1 exactly if the top three bits of byte 8 are 1, 0, 0. Missing: the third bit belongs to
the payload, so half of the RFC 4122 UUIDs get 0. -/
theorem C46_variant_partial (u : Bytes) : (variant u = 1 ↔ (u.getD 8 0).toNat / 32 = 4) ∧
    (variant u = 2 ↔ (u.getD 8 0).toNat / 32 = 6) ∧ (variant u = 0 ↔ (u.getD 8 0).toNat / 32 ≠ 4 ∧ (u.getD 8 0).toNat / 32 ≠ 6) := by
  have key : ∀ n : Fin 256, (UInt8.ofNat n.val &&& 0xe0 = 0x80 ↔ n.val / 32 = 4) ∧ (UInt8.ofNat n.val &&& 0xe0 = 0xc0 ↔ n.val / 32 = 6) := by
    decide +kernel
  have h := key ⟨(u.getD 8 0).toNat, (u.getD 8 0).toNat_lt⟩
  simp only [UInt8.ofNat_toNat] at h
  unfold variant
  simp only [h.1, h.2]
  generalize (u.getD 8 0).toNat / 32 = x
  split
  · rename_i h1; simp [h1]
  · split
    · rename_i h1; simp [h1]
    · rename_i h1 h2; simp [h1, h2]

example : variant (mk 5 7) = 1 ∧ variant (List.replicate 16 0xdf) = 2 ∧ variant (List.replicate 16 0xff) = 0 := by decide +kernel

/-- C46, what holds: in a process that has made fewer than 2^61 UUIDs in all, counting from 0, `Variant` is 1. -/
theorem C46_small_seq_partial (h64 seq : BitVec 64) (h : seq.toNat < 2 ^ 61) : variant (mk h64 seq) = 1 := by
  rw [(C46_variant_partial _).1]
  obtain ⟨a0, a1, a2, a3, a4, a5, a6, a7, c0, c1, c2, c3, c4, c5, c6, c7, _, hq, hm⟩ := mk_eq h64 seq
  rw [hm]
  simp only [List.getD_cons_succ, List.getD_cons_zero, mask3f]
  have v := beValue_int64 seq
  rw [hq, beValue_cons] at v
  simp only [List.length_cons, List.length_nil] at v
  norm_num at v h
  omega

example : (0xfffffffffffffff : BitVec 64).toNat < 2 ^ 61 := by decide

/-! ### C47 -/

/-- C47. In every interleaving of `NewUUID` calls by `n` threads, from every start of the sequence and for every hash
values, the UUIDs returned are pairwise different as long as no more than 2^62 calls have begun. -/
theorem C47_unique (n : Nat) (seq : BitVec 64) (as : List (Act n)) (s : St n) (he : exec (init n seq) as = some s)
    (hc : starts as ≤ 2 ^ 62) : s.out.Nodup := by
  obtain ⟨tags, idx, hi⟩ := inv_exec seq as 0 (init n seq) s [] _ (inv_init n seq) he
  exact forall₂_nodup hi.out hi.nodup fun i h => ⟨(hi.le i h).1, by have := (hi.le i h).2; omega⟩

/-- Two overlapping calls and a third one, the hash constant, the sequence wrapping around. -/
example : (exec (init 2 0xfffffffffffffffe) [.add 0, .add 1, .finish 1 9, .finish 0 9, .add 1, .finish 1 9]).map
      (fun s => s.out.map fun u => (u.getD 8 0, u.getD 15 0)) = some [(0x80, 1), (0xbf, 255), (0x80, 0)] := by decide +kernel

/-- C47, the bound is the best one: sequence numbers 2^62 apart give the same UUID under the same hash. -/
theorem C47_bound (h64 seq : BitVec 64) : mk h64 (seq + 0x4000000000000000) = mk h64 seq := mk_wrap h64 seq

/-! ### C48 -/

/-- C48, as stated: on a heap of UUIDs, `Equals` of two pointers is true exactly if the UUIDs are equal. -/
def C48_claim : Prop := ∀ (heap : Nat → Bytes) (u v : Nat), equals u (some v) = true ↔ heap u = heap v

/-- C48 is false: a UUID and its copy (for instance the result of `Parse(u.String())`) are not `Equals`. -/
theorem C48_claim_false : ¬ C48_claim := by
  intro h
  have := (h (fun _ => sample) 0 1).2 rfl
  revert this
  decide

/-- C48, what holds: `Equals` is true exactly for one and the same object, so it never holds for different UUIDs; and it
is false for nil. Missing: equal UUIDs in different objects. -/
theorem C48_equals_partial (heap : Nat → Bytes) (u v : Nat) :
    (equals u (some v) = true ↔ u = v) ∧ (equals u (some v) = true → heap u = heap v) ∧ equals u none = false := by
  simp only [equals, beq_iff_eq, and_true, true_and]
  exact fun h => by rw [h]

example : equals 3 (some 3) = true ∧ equals 3 (some 4) = false := by decide

/-! ### C83 -/

/-- C83, as stated: `Int64` of any two of up to 2^62 UUIDs of a process differ, whatever the hash. -/
def C83_claim : Prop := ∀ (n : Nat) (seq : BitVec 64) (as : List (Act n)) (s : St n), exec (init n seq) as = some s →
  starts as ≤ 2 ^ 62 → (s.out.map toInt64).Nodup

/-- C83 is false: two calls with the same hash value give different UUIDs with the same `Int64`. The sequence number
does not enter `Int64`. -/
theorem C83_claim_false : ¬ C83_claim := by
  intro h
  cases he : exec (init 1 0) [.add 0, .finish 0 5, .add 0, .finish 0 5] with
  | none =>
    have : (exec (init 1 0) [.add 0, .finish 0 5, .add 0, .finish 0 5]).isSome = true := by decide +kernel
    rw [he] at this
    cases this
  | some s =>
    have := h 1 0 _ s he (by decide)
    have hx : (exec (init 1 0) [.add 0, .finish 0 5, .add 0, .finish 0 5]).map (fun s => decide (s.out.map toInt64).Nodup) = some false := by
      decide +kernel
    rw [he] at hx
    simp [this] at hx

/-- C83, no hash function can repair it: of more than 2^60 UUIDs some two have the same `Int64` (and so the same
`Base58`), because four of its 64 bits are the version. -/
theorem C83_collision (n : Nat) (seq : BitVec 64) (as : List (Act n)) (s : St n) (he : exec (init n seq) as = some s)
    (hl : 2 ^ 60 < s.out.length) : ¬ (s.out.map toInt64).Nodup := by
  intro hn
  obtain ⟨tags, idx, hi⟩ := inv_exec seq as 0 (init n seq) s [] _ (inv_init n seq) he
  have hv : ∀ u ∈ s.out, (toInt64 u).toNat / 2 ^ 12 % 16 = 4 := by
    have := hi.out
    clear hn hl he hi
    generalize s.out = o at this
    induction this with
    | nil => simp
    | cons h1 h2 ih =>
      intro u hu
      rcases List.mem_cons.1 hu with rfl | hu
      · obtain ⟨h, rfl⟩ := h1
        exact mk_int64 _ _
      · exact ih u hu
  let f : BitVec 64 → Nat := fun v => v.toNat / 2 ^ 16 * 2 ^ 12 + v.toNat % 2 ^ 12
  have hf : ((s.out.map toInt64).map f).Nodup := by
    refine List.Nodup.map_on ?_ hn
    intro a ha b hb hab
    obtain ⟨u, hu, rfl⟩ := List.mem_map.1 ha
    obtain ⟨v, hw, rfl⟩ := List.mem_map.1 hb
    have h1 := hv u hu
    have h2 := hv v hw
    apply BitVec.eq_of_toNat_eq
    simp only [f] at hab
    norm_num at h1 h2 hab
    omega
  have := nodup_length_le _ hf (2 ^ 60) (by
    intro x hx
    obtain ⟨v, _, rfl⟩ := List.mem_map.1 hx
    have := v.isLt
    simp only [f]
    norm_num at this ⊢
    omega)
  simp only [List.length_map] at this
  omega

/-- C83, what holds: calls whose hash values differ outside the bits 12–15 have different `Int64`. Missing: nothing makes
the hash values differ. -/
theorem C83_hash_partial (h h' q q' : BitVec 64) :
    toInt64 (mk h q) = toInt64 (mk h' q') ↔ h.toNat / 2 ^ 16 = h'.toNat / 2 ^ 16 ∧ h.toNat % 2 ^ 12 = h'.toNat % 2 ^ 12 := by
  have key : ∀ h q : BitVec 64, (toInt64 (mk h q)).toNat = h.toNat / 2 ^ 16 * 2 ^ 16 + 2 ^ 14 + h.toNat % 2 ^ 12 := by
    intro h q
    obtain ⟨a0, a1, a2, a3, a4, a5, a6, a7, c0, c1, c2, c3, c4, c5, c6, c7, hh, _, hm⟩ := mk_eq h q
    rw [toInt64, bytesToInt64_toNat, hm]
    have v := beValue_int64 h
    rw [hh, show [a0, a1, a2, a3, a4, a5, a6, a7] = [a0, a1, a2, a3, a4, a5] ++ [a6, a7] from rfl, beValue_append] at v
    simp only [List.take_succ_cons, List.take_zero]
    rw [show [a0, a1, a2, a3, a4, a5, (a6 &&& 0x0f) ||| 0x40, a7] = [a0, a1, a2, a3, a4, a5] ++ [(a6 &&& 0x0f) ||| 0x40, a7] from rfl, beValue_append]
    have := a7.toNat_lt
    have := a6.toNat_lt
    have e2 : Gofer.Spec.Num.beValue [a6, a7] = a6.toNat * 256 + a7.toNat := by simp [beValue_cons, beValue_nil]
    have e3 : Gofer.Spec.Num.beValue [(a6 &&& 0x0f) ||| 0x40, a7] = (a6.toNat % 16 + 64) * 256 + a7.toNat := by
      simp only [beValue_cons, beValue_nil, mask0f, List.length_cons, List.length_nil]; omega
    rw [e2] at v
    rw [e3]
    simp only [List.length_cons, List.length_nil] at v ⊢
    generalize Gofer.Spec.Num.beValue [a0, a1, a2, a3, a4, a5] = x at v ⊢
    generalize h.toNat = y at v ⊢
    generalize a6.toNat = p at *
    generalize a7.toNat = r at *
    norm_num at v
    have v' : x * 65536 + (p * 256 + r) = y := v
    have y1 : y / 2 ^ 16 = x := by norm_num; omega
    have y2 : y % 2 ^ 12 = p % 16 * 256 + r := by norm_num; omega
    rw [y1, y2]
    clear v v' y1 y2
    generalize p % 16 = m
    norm_num
    omega
  rw [← BitVec.toNat_inj, key, key]
  norm_num
  omega

example : toInt64 (mk 0x0123456789ab0def 1) = 0x0123456789ab4def ∧ toInt64 (mk 0x0123456789ab3def 2) = 0x0123456789ab4def := by decide +kernel

end Gofer.Props.Uuid
