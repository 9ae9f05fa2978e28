import Verif.Proof.BloomString
/-! # What a Bloom filter says about itself (C268) -/
namespace Gofer.Props.BloomString
open Gofer.Bloom
open Gofer.Spec.Bloom
variable {I : Type}

/-- The bytes of the bit arrays that the filter has; a word has 8. -/
def held (bf : BF) : Nat := 8 * ((bf.b0.getD []).length + (bf.b1.getD []).length + (bf.b2.getD []).length)

/-- **C268, an upper bound**: `String` gives the numbers of the filter as it was made, whatever was added since, and its `bytes` are never less than what the bit arrays
take. -/
theorem C268_bound (hash : Nat → I → UInt64) (k W E : Nat) (os : List (Op I)) :
    report (final hash (new k W E) os) = ⟨k, W, E, 16 * W⟩ ∧ held (final hash (new k W E) os) ≤ (report (final hash (new k W E) os)).bytes := by
  have h := slim_final hash k W E os
  generalize final hash (new k W E) os = bf at h
  have e : report bf = ⟨k, W, E, 16 * W⟩ := by
    unfold report
    rw [h.hk, h.hW, h.hE, show W * 8 * 2 = 16 * W by omega]
  refine ⟨e, ?_⟩
  rw [e]
  have l : ∀ i < 3, ((bf.bits i).getD []).length ≤ W := by
    intro i hi
    cases hb : bf.bits i with
    | none => exact Nat.zero_le _
    | some w => exact Nat.le_of_eq (h.len i hi w hb)
  have l0 : (bf.b0.getD []).length ≤ W := l 0 (by decide)
  have l1 : (bf.b1.getD []).length ≤ W := l 1 (by decide)
  have l2 : (bf.b2.getD []).length ≤ W := l 2 (by decide)
  obtain ⟨i, hi, hn⟩ := h.gap
  have : i = 0 ∨ i = 1 ∨ i = 2 := by omega
  unfold held
  dsimp only
  rcases this with rfl | rfl | rfl
  · rw [show bf.b0 = none from hn] at l0 ⊢; simp only [Option.getD_none, List.length_nil]; omega
  · rw [show bf.b1 = none from hn] at l1 ⊢; simp only [Option.getD_none, List.length_nil]; omega
  · rw [show bf.b2 = none from hn] at l2 ⊢; simp only [Option.getD_none, List.length_nil]; omega

/-- **C268, the claim**: the bytes are what the bit arrays take. -/
def C268_claim : Prop := ∀ (hash : Nat → Nat → UInt64) (k W E : Nat) (os : List (Op Nat)), 0 < k → 0 < W → 0 < E →
  held (final hash (new k W E) os) = (report (final hash (new k W E) os)).bytes

/-- It is false: a new filter has one array only. -/
theorem C268_claim_false : ¬ C268_claim := fun h => absurd (h (fun _ _ => 0) 1 1 1 [] (by decide) (by decide) (by decide)) (by decide)

/-- **C268, from then on exact**: once as many items were added as the filter is made for, the bytes are exactly those of its bit arrays, for ever. -/
theorem C268_exact_partial (hash : Nat → I → UInt64) (k W E : Nat) (hk : 0 < k) (hW : 0 < W) (hE : 0 < E) (os : List (Op I)) (hn : E ≤ (adds os).length) :
    held (final hash (new k W E) os) = (report (final hash (new k W E) os)).bytes := by
  have h0 := inv_new (I := I) hash (k := k) (W := W) hE
  have hi := inv_final hash hk hW hE os h0
  have hp := prev_final hash hk hW hE os h0 (fun h => absurd h (by simp; omega))
  rw [List.nil_append] at hi hp
  have hs := slim_final hash k W E os
  rw [(C268_bound hash k W E os).1]
  generalize final hash (new k W E) os = bf at hi hs hp
  obtain ⟨w, hw, hl, _⟩ := hi.cur
  have hrm := hi.rm
  rw [hi.hn] at hw hrm
  obtain ⟨v, hv⟩ := Option.isSome_iff_exists.mp (hp hn)
  have hc := (phase_shape (adds os).length E).2
  have hvl := hs.len _ (nxt_lt (nxt_lt hc)) v hv
  generalize (phase (adds os).length E).1 = c at *
  have : c = 0 ∨ c = 1 ∨ c = 2 := by omega
  unfold held
  dsimp only
  rcases this with rfl | rfl | rfl
  · rw [show bf.b0 = some w from hw, show bf.b1 = none from hrm, show bf.b2 = some v from hv]; simp only [Option.getD_some, Option.getD_none, List.length_nil]; omega
  · rw [show bf.b1 = some w from hw, show bf.b2 = none from hrm, show bf.b0 = some v from hv]; simp only [Option.getD_some, Option.getD_none, List.length_nil]; omega
  · rw [show bf.b2 = some w from hw, show bf.b0 = none from hrm, show bf.b1 = some v from hv]; simp only [Option.getD_some, Option.getD_none, List.length_nil]; omega

/-- A filter for one item, of one word and one hash function: 8 bytes at first, then 16. -/
example : held (new 1 1 1) = 8 ∧ held (final (fun _ (x : Nat) => x.toUInt64) (new 1 1 1) [.add 3]) = 16 ∧
    held (final (fun _ (x : Nat) => x.toUInt64) (new 1 1 1) [.add 3, .contains 4, .add 4, .add 5, .add 6]) = 16 ∧
    (report (new 1 1 1)).bytes = 16 := by decide

end Gofer.Props.BloomString
