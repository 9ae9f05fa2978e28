import Verif.Spec.UuidForm
import Verif.Proof.Uuid
/-! # Lemmas on what `NewUUID` can return -/
namespace Gofer.Uuid
open Gofer.Num Gofer.Spec.Uuid Gofer.Spec.Num

theorem half_mk (h q : BitVec 64) : half (mk h q) = q.toNat % 2 ^ 62 := by
  obtain ⟨a0, a1, a2, a3, a4, a5, a6, a7, c0, c1, c2, c3, c4, c5, c6, c7, _, hq, hm⟩ := mk_eq h q
  rw [hm]
  have v := beValue_int64 q
  rw [hq, beValue_cons] at v
  have hlt := beValue_lt [c1, c2, c3, c4, c5, c6, c7]
  simp only [half, List.drop_succ_cons, List.drop_zero, beValue_cons _ [c1, c2, c3, c4, c5, c6, c7], mask3f]
  simp only [List.length_cons, List.length_nil] at v hlt ⊢
  generalize beValue [c1, c2, c3, c4, c5, c6, c7] = r at v hlt
  norm_num at v hlt ⊢
  omega

theorem v4_mk (h q : BitVec 64) : V4 (mk h q) := by
  obtain ⟨a0, a1, a2, a3, a4, a5, a6, a7, c0, c1, c2, c3, c4, c5, c6, c7, _, _, hm⟩ := mk_eq h q
  rw [hm]
  refine ⟨rfl, ?_, ?_⟩
  · simp only [List.getD_cons_succ, List.getD_cons_zero, mask0f]; omega
  · simp only [List.getD_cons_succ, List.getD_cons_zero, mask3f]; omega

/-- Only the low 62 bits of the sequence number matter. -/
theorem mk_low (h q q' : BitVec 64) (e : q.toNat % 2 ^ 62 = q'.toNat % 2 ^ 62) : mk h q = mk h q' := by
  have hq := q.isLt
  have hq' := q'.isLt
  norm_num at e hq hq'
  have top : (q.toNat / 72057594037927936).toUInt8.toNat % 64 = (q'.toNat / 72057594037927936).toUInt8.toNat % 64 := by
    simp only [Nat.toUInt8, UInt8.toNat_ofNat']
    omega
  have low : beBytes 7 q.toNat = beBytes 7 q'.toNat := by
    apply beValue_inj
    · simp [beBytes_length]
    · rw [beValue_beBytes, beValue_beBytes]
      norm_num
      omega
  have := mask_wrap _ _ (beBytes 7 q'.toNat) (int64ToBytes h) (length_int64ToBytes h) top
  unfold mk
  rw [int64ToBytes_split q, low, int64ToBytes_split q']
  exact this

theorem int64ToBytes_beValue {l : List UInt8} (h : l.length = 8) : int64ToBytes (BitVec.ofNat 64 (beValue l)) = l := by
  apply beValue_inj
  · rw [length_int64ToBytes, h]
  · rw [beValue_int64, BitVec.toNat_ofNat]
    have := beValue_lt l
    rw [h] at this
    exact Nat.mod_eq_of_lt (by norm_num at this ⊢; exact this)

/-- Every version 4 UUID can be made. -/
theorem mk_surj {u : List UInt8} (h : V4 u) : u = mk (BitVec.ofNat 64 (beValue (u.take 8))) (BitVec.ofNat 64 (beValue (u.drop 8))) := by
  obtain ⟨a0, a1, a2, a3, a4, a5, a6, a7, c0, c1, c2, c3, c4, c5, c6, c7, rfl⟩ := sixteen h.len
  have h1 := h.version
  have h2 := h.variant
  simp only [List.getD_cons_succ, List.getD_cons_zero] at h1 h2
  unfold mk
  rw [int64ToBytes_beValue (by rfl), int64ToBytes_beValue (by rfl)]
  have e1 : (a6 &&& 0x0f) ||| 0x40 = a6 := by
    apply UInt8.toNat_inj.1
    rw [mask0f]; omega
  have e2 : (c0 &&& 0x3f) ||| 0x80 = c0 := by
    apply UInt8.toNat_inj.1
    rw [mask3f]; omega
  simp [e1, e2]

end Gofer.Uuid
