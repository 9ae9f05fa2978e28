import Verif.Props.Uuid

/-! # 32-bit numbers made of UUIDs: property C211 -/
namespace Gofer.Props.Uuid32
open Gofer.Uuid

/-- C211: of more than 2^32 results of `UUID32` (or of `Int32` of new UUIDs) in a process some two are equal, whatever the hash function and
however the calls are interleaved. -/
theorem C211_repeats (hash64 : Bytes → BitVec 64) (n : Nat) (seq : BitVec 64) (as : List (Act n)) (s : St n)
    (_ : exec (init n seq) as = some s) (hl : 2 ^ 32 < s.out.length) : ¬ (s.out.map (uuid32 hash64)).Nodup := by
  intro hn
  have hf : ((s.out.map (uuid32 hash64)).map BitVec.toNat).Nodup := List.Nodup.map_on (fun a _ b _ h => BitVec.eq_of_toNat_eq h) hn
  have := nodup_length_le _ hf (2 ^ 32) (by
    intro x hx
    obtain ⟨v, _, rfl⟩ := List.mem_map.1 hx
    exact v.isLt)
  simp only [List.length_map] at this
  omega

/-- `k` calls, one after the other. -/
def calls : Nat → List (Act 1)
  | 0 => []
  | k + 1 => .add 0 :: .finish 0 0 :: calls k

theorem calls_run (k : Nat) (s : St 1) (h : s.held 0 = none) : ∃ t, exec s (calls k) = some t ∧ t.out.length = s.out.length + k := by
  induction k generalizing s with
  | zero => exact ⟨s, rfl, rfl⟩
  | succ k ih =>
    obtain ⟨t, ht, hl⟩ := ih ⟨s.seq + 1, fun i => if i = 0 then none else if i = 0 then some (s.seq + 1) else s.held i,
      mk 0 (s.seq + 1) :: s.out⟩ (by simp)
    refine ⟨t, ?_, ?_⟩
    · simp only [calls, exec, act, h]
      simpa using ht
    · rw [hl]
      simp only [List.length_cons]
      omega

/-- C211: such runs exist, so for no hash function are the numbers of a process different. -/
theorem C211_claim_false (hash64 : Bytes → BitVec 64) :
    ¬ ∀ (n : Nat) (seq : BitVec 64) (as : List (Act n)) (s : St n), exec (init n seq) as = some s → (s.out.map (uuid32 hash64)).Nodup := by
  intro h
  obtain ⟨t, ht, hl⟩ := calls_run (2 ^ 32 + 1) (init 1 0) rfl
  exact C211_repeats hash64 1 0 _ t ht (by rw [hl]; simp [init]) (h 1 0 _ t ht)

/-- C211: what makes two numbers differ is the lower half of the hash values. -/
theorem C211_same (hash64 : Bytes → BitVec 64) (u v : Bytes) :
    uuid32 hash64 u = uuid32 hash64 v ↔ (hash64 u).toNat % 2 ^ 32 = (hash64 v).toNat % 2 ^ 32 := by
  unfold uuid32 toInt32
  rw [← BitVec.toNat_inj, BitVec.toNat_setWidth, BitVec.toNat_setWidth]

-- Two calls; a hash function under which the numbers differ, and one under which they do not.
example : (exec (init 1 0) (calls 2)).map (fun s => (s.out.map (uuid32 fun u => (u.getD 15 0).toNat), s.out.map (uuid32 fun _ => 7))) =
    some ([2, 1], [7, 7]) := by decide +kernel

end Gofer.Props.Uuid32
