import Verif.Proof.UuidNext
import Verif.Props.Base58
import Verif.Model.UuidBase58
/-! # Properties C185, C186: how much of a UUID is free; its short form -/
namespace Gofer.Props.UuidNext
open Gofer.Uuid Gofer.Num Gofer.Spec.Uuid Gofer.Spec.Num

/-! ### C185 -/

/-- One goroutine makes two UUIDs, the hashes being `h` and `h'`. -/
def twice (seq h h' : BitVec 64) : Option (List Bytes) := (exec (init 1 seq) [.add 0, .finish 0 h, .add 0, .finish 0 h']).map fun s => s.out.reverse

theorem twice_eq (seq h h' : BitVec 64) : twice seq h h' = some [mk h (seq + 1), mk h' (seq + 1 + 1)] := rfl

/-- C185, as stated: whoever has seen one UUID knows nothing of the 122 free bits of the next: each version 4 UUID other than the one seen can come next. -/
def C185_claim : Prop := ∀ u v : Bytes, V4 u → V4 v → u ≠ v → ∃ seq h h', twice seq h h' = some [u, v]

/-- C185, what holds: `u` and then `v` can come, for some start of the sequence and some hash values, exactly if both are version 4 and the free bits of the second half of `v` are those of
`u` plus one. The 60 free bits of the first half are up to the hash. Missing: the 62 bits of the second half. -/
theorem C185_next_partial (u v : Bytes) : (∃ seq h h', twice seq h h' = some [u, v]) ↔ V4 u ∧ V4 v ∧ half v = (half u + 1) % 2 ^ 62 := by
  constructor
  · rintro ⟨seq, h, h', e⟩
    rw [twice_eq] at e
    simp only [Option.some.injEq, List.cons.injEq, and_true] at e
    obtain ⟨rfl, rfl⟩ := e
    refine ⟨v4_mk _ _, v4_mk _ _, ?_⟩
    rw [half_mk, half_mk, BitVec.toNat_add _ 1, show BitVec.toNat (1 : BitVec 64) = 1 from rfl]
    generalize (seq + 1).toNat = x
    omega
  · rintro ⟨hu, hv, e⟩
    have eu := mk_surj hu
    have ev := mk_surj hv
    generalize BitVec.ofNat 64 (beValue (u.take 8)) = h at eu
    generalize BitVec.ofNat 64 (beValue (v.take 8)) = h' at ev
    generalize BitVec.ofNat 64 (beValue (u.drop 8)) = q at eu
    generalize BitVec.ofNat 64 (beValue (v.drop 8)) = q' at ev
    refine ⟨q - 1, h, h', ?_⟩
    rw [twice_eq, BitVec.sub_add_cancel, eu, ev]
    rw [eu, ev, half_mk, half_mk] at e
    rw [mk_low h' (q + 1) q']
    rw [e, BitVec.toNat_add, show BitVec.toNat (1 : BitVec 64) = 1 from rfl]
    generalize q.toNat = x
    omega

/-- C185 is false: a UUID and the same with another first byte cannot come one after the other. -/
theorem C185_claim_false : ¬ C185_claim := by
  intro h
  have h1 : V4 (mk 0 0) := v4_mk _ _
  have h2 : V4 (mk 1 0) := v4_mk _ _
  have := ((C185_next_partial _ _).1 (h _ _ h1 h2 (by decide +kernel))).2.2
  rw [half_mk, half_mk] at this
  revert this
  decide

/-- C185, how little is left to guess in a process: in every execution of any number of goroutines in which `k` calls were begun, the second half of every UUID returned is the start of the sequence
plus one of the numbers 1 to `k`. So the second half of one UUID determines that of all others up to a number less than `k`. -/
theorem C185_window_partial (n : Nat) (seq : BitVec 64) (as : List (Act n)) (s : St n) (he : exec (init n seq) as = some s) (u v : Bytes) (hu : u ∈ s.out) (hv : v ∈ s.out) :
    ∃ d : Nat, d < starts as ∧ (half v = (half u + d) % 2 ^ 62 ∨ half u = (half v + d) % 2 ^ 62) := by
  obtain ⟨tags, idx, hi⟩ := inv_exec seq as 0 (init n seq) s [] _ (inv_init n seq) he
  have key : ∀ u ∈ s.out, ∃ i, 1 ≤ i ∧ i ≤ starts as ∧ half u = (seq.toNat + i) % 2 ^ 62 := by
    have hle := hi.le
    have ho := hi.out
    generalize s.out = o at ho
    clear hi hu hv
    intro u hu
    induction ho with
    | nil => cases hu
    | @cons x i o t h1 h2 ih =>
      rcases List.mem_cons.1 hu with rfl | hu
      · obtain ⟨h, rfl⟩ := h1
        have := hle i (by simp)
        refine ⟨i, this.1, by omega, ?_⟩
        rw [half_mk, BitVec.toNat_add, BitVec.toNat_ofNat]
        norm_num
      · exact ih (fun j hj => hle j (by simp [hj])) hu
  obtain ⟨i, hi1, hi2, hi3⟩ := key u hu
  obtain ⟨j, hj1, hj2, hj3⟩ := key v hv
  rcases Nat.le_total i j with hij | hij
  · exact ⟨j - i, by omega, .inl (by rw [hi3, hj3]; norm_num; omega)⟩
  · exact ⟨i - j, by omega, .inr (by rw [hi3, hj3]; norm_num; omega)⟩

example : twice 4 0 0xffff = some [[0, 0, 0, 0, 0, 0, 0x40, 0, 0x80, 0, 0, 0, 0, 0, 0, 5], [0, 0, 0, 0, 0, 0, 0x4f, 255, 0x80, 0, 0, 0, 0, 0, 0, 6]] := by decide +kernel

/-! ### C186 -/

/-- C186. `DecodeForInt64(u.Base58())` is `uint64(u.Int64())`, with true. -/
theorem C186_decodes (u : Bytes) : Base58.decodeForInt64 (base58 u) = (UInt64.ofBitVec (toInt64 u), true) := Base58.C01_base58_roundtrip _

/-- C186. Two UUIDs have the same Base58 form exactly if they have the same `Int64`. -/
theorem C186_same (u v : Bytes) : base58 u = base58 v ↔ toInt64 u = toInt64 v := by
  constructor
  · intro h
    exact congrArg UInt64.toBitVec (Base58.C02_base58_injective _ _ h)
  · intro h; unfold base58; rw [h]

/-- C186. The Base58 form of a generated UUID has 3 to 11 characters. -/
theorem C186_length (h q : BitVec 64) : 3 ≤ (base58 (mk h q)).length ∧ (base58 (mk h q)).length ≤ 11 := by
  refine ⟨?_, (Base58.C02_base58_canonical _).2.2.2⟩
  have h4 := mk_int64 h q
  obtain ⟨ds, ht, hv, _⟩ := Base58.C02_base58_denotes (UInt64.ofBitVec (toInt64 (mk h q)))
  obtain ⟨h1, h2⟩ := (Gofer.Base58.isText_iff _ _).1 ht
  have hlen : (base58 (mk h q)).length = ds.length := by unfold base58; rw [← h2]; simp [Gofer.Base58.txt]
  rw [hlen]
  have hv : Spec.Base58.value ds = (toInt64 (mk h q)).toNat := hv
  have hl := Gofer.Base58.value_lt ds h1
  by_contra hc
  have hp : 58 ^ ds.length ≤ 58 ^ 2 := Nat.pow_le_pow_right (by decide) (by omega)
  omega

example : (base58 (mk 0 7)).length = 3 := by
  simp only [base58, Gofer.Base58.encode_eq, Gofer.Base58.txt_length]; decide +kernel

example : (base58 (mk 0x8000000000000000 7)).length = 11 := by
  simp only [base58, Gofer.Base58.encode_eq, Gofer.Base58.txt_length]; decide +kernel

example : base58 (mk 5 7) = base58 (mk 5 8) ∧ mk 5 7 ≠ mk 5 8 := ⟨(C186_same _ _).2 (by decide +kernel), by decide +kernel⟩

end Gofer.Props.UuidNext
