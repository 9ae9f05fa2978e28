import Verif.Proof.Float32Key
import Verif.Props.LimitHashMap
/-! # `LimitHashMap` with `float32` keys (C264) -/
namespace Gofer.Props.Float32Key
open Gofer.LimitHashMap Gofer.Spec.Float32
open Gofer.Spec.LimitHashMap (Op Res)

/-- What a key stands for. -/
def valueOf (k : BitVec 32) : Value := value32 k.toNat

/-- **C264, the hash is the number**: read as a float64 it is the number the key stands for, for all keys (a unit of a float32 is 2^925 units of a float64). -/
theorem C264_number (k : BitVec 32) : value64 (hashFloat32 k).toNat = (valueOf k).scale (2 ^ 925) := by
  rw [hashFloat32_toNat]
  exact widen_value k.isLt

/-- **C264, which keys share an entry**: only a key with itself, and NaNs that differ in nothing but the bit that says "quiet". -/
theorem C264_same (a b : BitVec 32) : hashFloat32 a = hashFloat32 b ↔
    a = b ∨ (valueOf a = .nan ∧ valueOf b = .nan ∧ a.toNat / 2 ^ 31 = b.toNat / 2 ^ 31 ∧ a.toNat % 2 ^ 22 = b.toNat % 2 ^ 22) := by
  rw [← UInt64.toNat_inj, hashFloat32_toNat, hashFloat32_toNat, widen_same a.isLt b.isLt, BitVec.toNat_inj]
  rfl

/-- **C264, the claim**: equal keys find the same value, and a value is found under a key equal to the one it was put under. -/
def C264_claim : Prop := ∀ (cap : Int) (segs : Nat) (os : List (Op (BitVec 32) Nat)) (k : BitVec 32), 0 < segs →
  (∀ k', (valueOf k).eq (valueOf k') → get (final (new hashFloat32 cap segs) os) k = get (final (new hashFloat32 cap segs) os) k') ∧
  ∀ v, get (final (new hashFloat32 cap segs) os) k = some v → ∃ k', Op.put k' v ∈ os ∧ (valueOf k).eq (valueOf k')

/-- It is false: 0 == -0, but what is put under 0 is not found under -0. -/
theorem C264_claim_false : ¬ C264_claim := by
  intro h
  have := (h 64 1 [.put 0 7] 0 (by decide)).1 0x80000000 (by
    rw [show valueOf 0 = .num false 0 by decide +kernel, show valueOf 0x80000000 = .num true 0 by decide +kernel]
    exact ⟨rfl, .inr rfl⟩)
  revert this
  decide +kernel

/-- And a value put under NaN is found under NaN, and under another NaN, though NaN equals nothing; a Go map finds nothing. -/
theorem C264_nan : let c := final (new hashFloat32 64 1 : LHM (BitVec 32) Nat) [.put 0x7fc00001 7]
    get c 0x7fc00001 = some 7 ∧ get c 0x7f800001 = some 7 ∧ valueOf 0x7f800001 = .nan ∧ ¬ (valueOf 0x7fc00001).eq (valueOf 0x7fc00001) := by
  refine ⟨by decide +kernel, by decide +kernel, by decide +kernel, ?_⟩
  rw [show valueOf 0x7fc00001 = .nan by decide +kernel]
  exact id

/-- **C264, the part that holds**: for a key that is neither NaN nor zero, both. Values may be of any type, capacity and segments any numbers, the history any. -/
theorem C264_found_partial {V : Type} [GoValue V] (cap : Int) (segs : Nat) (os : List (Op (BitVec 32) V)) (k : BitVec 32) (hn : valueOf k ≠ .nan)
    (hz : k.toNat % 2 ^ 31 ≠ 0) :
    (∀ k', (valueOf k).eq (valueOf k') → get (final (new hashFloat32 cap segs) os) k = get (final (new hashFloat32 cap segs) os) k') ∧
    ∀ v, get (final (new hashFloat32 cap segs) os) k = some v → Op.put k v ∈ os := by
  constructor
  · intro k' h
    have e : valueOf k = valueOf k' := by
      have nz : ∀ s, valueOf k ≠ .num s 0 := by
        intro s e
        have l := k.isLt
        unfold valueOf value32 at e
        split at e
        · split at e <;> cases e
        · injection e with _ e
          split at e
          · omega
          · have := Nat.two_pow_pos (k.toNat / 2 ^ 23 % 256 - 1)
            have := Nat.mul_pos (show 0 < 2 ^ 23 + k.toNat % 2 ^ 23 by omega) this
            omega
      cases hk : valueOf k <;> cases hk' : valueOf k' <;> rw [hk, hk'] at h
      case num.num s u s' u' =>
        obtain ⟨rfl, rfl | rfl⟩ := h
        · rfl
        · exact absurd hk (nz _)
      case inf.inf => rw [show _ = _ from h]
      all_goals exact absurd h id
    rw [BitVec.toNat_inj.1 (value32_inj k.isLt k'.isLt hn e)]
  · intro v hg
    obtain ⟨k', h1, h2⟩ := Gofer.Props.LimitHashMap.C21_same_hash_partial hashFloat32 cap segs os k v hg
    rcases (C264_same k' k).1 h2 with rfl | ⟨_, h, _⟩
    · exact h1
    · exact absurd h hn

/-- **C264, histories without NaN**: every history returns what an independent map with eviction by age in each segment returns. -/
theorem C264_refines {V : Type} [GoValue V] (cap : Int) (segs : Nat) (os : List (Op { k : BitVec 32 // valueOf k ≠ .nan } V)) :
    run (new (fun k : { k : BitVec 32 // valueOf k ≠ .nan } => hashFloat32 k.1) cap segs) os =
      Spec.LimitHashMap.run GoValue.zero GoValue.isNil segs (cap.tdiv segs) (fun k => (hashFloat32 k.1).toNat % segs) (fun _ => []) os := by
  apply Gofer.Props.LimitHashMap.C20_limitHashMap_refines
  intro a b h
  rcases (C264_same a.1 b.1).1 h with e | ⟨h, _⟩
  · exact Subtype.ext e
  · exact absurd h a.2

/-- Keys that are neither: 1.5, the smallest number, minus infinity. -/
example : valueOf 0x3fc00000 = .num false (3 * 2 ^ 148) ∧ valueOf 1 = .num false 1 ∧ valueOf 0xff800000 = .inf true := by decide +kernel
example : run (new hashFloat32 2 1 : LHM (BitVec 32) Nat) [.put 0x3fc00000 1, .put 1 2, .get 0x3fc00000, .put 0xff800000 3, .get 0x3fc00000, .get 1, .len] =
    [.val 0 false, .val 0 false, .val 1 true, .val 0 false, .val 0 false, .val 2 true, .num 2] := by decide +kernel

end Gofer.Props.Float32Key
