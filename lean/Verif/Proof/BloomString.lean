import Verif.Model.BloomString
import Verif.Proof.Bloom
/-! # Lemmas for the memory of a Bloom filter -/
namespace Gofer.Bloom
open Gofer.Spec.Bloom (Op)
variable {I : Type}

/-- The arrays have the size of the filter, and one is missing. -/
structure Slim (k W E : Nat) (bf : BF) : Prop where
  hk : bf.hashCount = k
  hW : bf.arraySize = W
  hE : bf.expectedItems = E
  len : ∀ i < 3, ∀ w, bf.bits i = some w → w.length = W
  gap : ∃ i < 3, bf.bits i = none

theorem slim_index {k W E : Nat} {bf : BF} (h : Slim k W E bf) : Slim k W E (getBitIndex bf).1 := by
  have hs := (phase_shape bf.numCount bf.expectedItems).2
  cases hb : bf.bits (phase bf.numCount bf.expectedItems).1 with
  | some w => rw [getBitIndex_of_some hb]; exact h
  | none =>
    rw [getBitIndex_of_none hb]
    generalize (phase bf.numCount bf.expectedItems).1 = p at hs
    have hn := nxt_lt hs
    dsimp only
    obtain ⟨a1, a2, a3, _⟩ := setBits_fields bf p (some (List.replicate bf.arraySize 0))
    obtain ⟨b1, b2, b3, _⟩ := setBits_fields (bf.setBits p (some (List.replicate bf.arraySize 0))) (nxt p) none
    refine ⟨by rw [b1, a1, h.hk], by rw [b2, a2, h.hW], by rw [b3, a3, h.hE], ?_, nxt p, hn, ?_⟩
    · intro i hi w hw
      rw [bits_setBits _ _ _ _ hn hi] at hw
      split at hw
      · cases hw
      · rw [bits_setBits _ _ _ _ hs hi] at hw
        split at hw
        · cases hw
          rw [List.length_replicate, h.hW]
        · exact h.len i hi w hw
    · rw [bits_setBits _ _ _ _ hn hn, if_pos rfl]

theorem slim_setBit {k W E : Nat} {bf : BF} (h : Slim k W E bf) (q : Nat) : Slim k W E (setBit bf q) := by
  have hs : (getBitIndex bf).2.1 < 3 := by
    unfold getBitIndex
    have hp := phase_shape bf.numCount bf.expectedItems
    rw [hp.1]
    dsimp only
    split <;> exact hp.2
  have h1 := slim_index h
  unfold setBit
  revert h1 hs
  generalize getBitIndex bf = g
  obtain ⟨b, id, pr⟩ := g
  intro hs h1
  dsimp only at hs h1 ⊢
  cases hb : b.bits id with
  | none => exact h1
  | some w =>
    dsimp only
    obtain ⟨a1, a2, a3, _⟩ := setBits_fields b id (some (w.set (q / 64) (w.getD (q / 64) 0 ||| (1 <<< (q % 64).toUInt64))))
    refine ⟨by rw [a1, h1.hk], by rw [a2, h1.hW], by rw [a3, h1.hE], ?_, ?_⟩
    · intro i hi v hv
      rw [bits_setBits _ _ _ _ hs hi] at hv
      split at hv
      · cases hv
        rw [List.length_set]
        exact h1.len id hs w hb
      · exact h1.len i hi v hv
    · obtain ⟨i, hi, hn⟩ := h1.gap
      refine ⟨i, hi, ?_⟩
      rw [bits_setBits _ _ _ _ hs hi, if_neg, hn]
      rintro rfl
      rw [hb] at hn
      cases hn

theorem slim_add (hash : Nat → I → UInt64) {k W E : Nat} {bf : BF} (h : Slim k W E bf) (x : I) : Slim k W E (add hash bf x) := by
  have h0 : Slim k W E { bf with numCount := bf.numCount + 1 } := ⟨h.hk, h.hW, h.hE, h.len, h.gap⟩
  have loop : ∀ (ps : List Nat) (b : BF), Slim k W E b → Slim k W E (ps.foldl (fun bf i => setBit bf (pos hash bf.arraySize i x)) b) := by
    intro ps
    induction ps with
    | nil => exact fun b hb => hb
    | cons p ps ih => exact fun b hb => ih _ (slim_setBit hb _)
  unfold add
  dsimp only
  split
  · exact h0
  · exact loop _ _ h0

theorem slim_contains (hash : Nat → I → UInt64) {k W E : Nat} {bf : BF} (h : Slim k W E bf) (x : I) : Slim k W E (contains hash bf x).1 := by
  have loop : ∀ (ps : List Nat) (b : BF), Slim k W E b → Slim k W E (containsLoop hash x ps b).1 := by
    intro ps
    induction ps with
    | nil => exact fun b hb => hb
    | cons p ps ih =>
      intro b hb
      have ht : Slim k W E (testBit b (pos hash b.arraySize p x)).1 := slim_index hb
      unfold containsLoop
      revert ht
      generalize testBit b (pos hash b.arraySize p x) = t
      obtain ⟨c, r⟩ := t
      intro ht
      cases r
      · exact ht
      · exact ih c ht
  unfold contains
  split
  · exact h
  · exact loop _ _ h

theorem slim_final (hash : Nat → I → UInt64) (k W E : Nat) (os : List (Op I)) : Slim k W E (final hash (new k W E) os) := by
  have h0 : Slim k W E (new k W E) := by
    refine slim_index ⟨rfl, rfl, rfl, ?_, 0, by decide, rfl⟩
    intro i hi w hw
    have : i = 0 ∨ i = 1 ∨ i = 2 := by omega
    rcases this with rfl | rfl | rfl <;> cases hw
  revert h0
  generalize new k W E = bf
  intro h0
  induction os generalizing bf with
  | nil => exact h0
  | cons o os ih =>
    cases o with
    | add x => exact ih _ (slim_add hash h0 x)
    | contains x => exact ih _ (slim_contains hash h0 x)

theorem setBit_some {bf : BF} (h : (bf.bits (phase bf.numCount bf.expectedItems).1).isSome = true) (q : Nat) :
    (∀ i < 3, ((setBit bf q).bits i).isSome = (bf.bits i).isSome) ∧ (setBit bf q).numCount = bf.numCount ∧ (setBit bf q).expectedItems = bf.expectedItems := by
  obtain ⟨w, hw⟩ := Option.isSome_iff_exists.mp h
  have hs := (phase_shape bf.numCount bf.expectedItems).2
  unfold setBit
  rw [getBitIndex_of_some hw]
  dsimp only
  rw [hw]
  dsimp only
  obtain ⟨_, _, a3, a4⟩ := setBits_fields bf (phase bf.numCount bf.expectedItems).1 (some (w.set (q / 64) (w.getD (q / 64) 0 ||| (1 <<< (q % 64).toUInt64))))
  refine ⟨?_, a4, a3⟩
  intro i hi
  rw [bits_setBits _ _ _ _ hs hi]
  split
  · rename_i e
    rw [e, hw]; rfl
  · rfl

theorem setBits_some (hash : Nat → I → UInt64) (x : I) (ps : List Nat) {bf : BF} (h : (bf.bits (phase bf.numCount bf.expectedItems).1).isSome = true) :
    ∀ i < 3, ((ps.foldl (fun bf i => setBit bf (pos hash bf.arraySize i x)) bf).bits i).isSome = (bf.bits i).isSome := by
  induction ps generalizing bf with
  | nil => exact fun _ _ => rfl
  | cons p ps ih =>
    intro i hi
    obtain ⟨h1, h2, h3⟩ := setBit_some h (pos hash bf.arraySize p x)
    have hs := (phase_shape bf.numCount bf.expectedItems).2
    rw [List.foldl_cons, ih _ i hi, h1 i hi]
    rw [h2, h3, h1 _ hs]
    exact h

/-- The first bit of a new generation. -/
theorem setBit_new {bf : BF} (h : bf.bits (phase bf.numCount bf.expectedItems).1 = none) (q : Nat) :
    ((setBit bf q).bits (phase bf.numCount bf.expectedItems).1).isSome = true ∧
      ((setBit bf q).bits (nxt (nxt (phase bf.numCount bf.expectedItems).1))).isSome = (bf.bits (nxt (nxt (phase bf.numCount bf.expectedItems).1))).isSome ∧
      (setBit bf q).numCount = bf.numCount ∧ (setBit bf q).expectedItems = bf.expectedItems := by
  have hs := (phase_shape bf.numCount bf.expectedItems).2
  unfold setBit
  rw [getBitIndex_of_none h]
  dsimp only
  revert hs
  generalize (phase bf.numCount bf.expectedItems).1 = p
  intro hs
  have hn := nxt_lt hs
  have hnn := nxt_lt hn
  obtain ⟨e1, e2, e3, _⟩ := nxt_ne hs
  rw [bits_setBits _ _ _ _ hn hs, if_neg e1.symm, bits_setBits _ _ _ _ hs hs, if_pos rfl]
  dsimp only
  refine ⟨?_, ?_, ?_, ?_⟩
  · rw [bits_setBits _ _ _ _ hs hs, if_pos rfl]; rfl
  · rw [bits_setBits _ _ _ _ hs hnn, if_neg e2, bits_setBits _ _ _ _ hn hnn, if_neg e3, bits_setBits _ _ _ _ hs hnn, if_neg e2]
  · rw [(setBits_fields _ _ _).2.2.2, (setBits_fields _ _ _).2.2.2, (setBits_fields _ _ _).2.2.2]
  · rw [(setBits_fields _ _ _).2.2.1, (setBits_fields _ _ _).2.2.1, (setBits_fields _ _ _).2.2.1]

theorem add_prev (hash : Nat → I → UInt64) {k W E : Nat} (hk : 0 < k) (hW : 0 < W) (hE : 0 < E) {bf : BF} {l : List I} (h : Inv hash k W E bf l)
    (hp : E ≤ l.length → (bf.bits (nxt (nxt (phase l.length E).1))).isSome = true) (x : I) (hn : E ≤ l.length + 1) :
    ((add hash bf x).bits (nxt (nxt (phase (l.length + 1) E).1))).isSome = true := by
  obtain ⟨w, hw, _⟩ := h.cur
  have hrm := h.rm
  rw [h.hn] at hw hrm
  have hs := (phase_shape l.length E).2
  have hs' := (phase_shape (l.length + 1) E).2
  have eb : add hash bf x = (List.range k).foldl (fun bf i => setBit bf (pos hash bf.arraySize i x)) { bf with numCount := l.length + 1 } := by
    unfold add
    dsimp only
    rw [h.hW, if_neg (by omega), h.hk, h.hn]
  rw [eb]
  have e0 : ∀ i, BF.bits { bf with numCount := l.length + 1 } i = bf.bits i := by
    intro i
    unfold BF.bits
    split <;> rfl
  rcases phase_step l.length E hE with ⟨h1, _, _⟩ | ⟨_, h1, _, _⟩
  · have hEl : E ≤ l.length := by
      by_cases hc : E ≤ l.length
      · exact hc
      · exfalso
        have hl : l.length + 1 = E := by omega
        rw [hl] at h1
        have a : phase E E = (1, 2, 0) := by
          unfold phase
          have : E % (E * 3 + 1) = E := Nat.mod_eq_of_lt (by omega)
          simp only [this, Nat.lt_irrefl, if_false, if_pos (show E < E * 2 by omega)]
        have b : phase l.length E = (0, 1, 2) := by
          unfold phase
          have : l.length % (E * 3 + 1) = l.length := Nat.mod_eq_of_lt (by omega)
          simp only [this, if_pos (show l.length < E by omega)]
        rw [a, b] at h1
        exact absurd h1 (by decide)
    rw [setBits_some hash x _ (by dsimp only; rw [e0, h.hE, h1, hw]; rfl) _ (nxt_lt (nxt_lt hs')), e0, h1]
    exact hp hEl
  · have hr : List.range k = 0 :: (List.range (k - 1)).map (· + 1) := by
      cases k with
      | zero => omega
      | succ k => rw [List.range_succ_eq_map, Nat.add_sub_cancel]
    have hnone : BF.bits { bf with numCount := l.length + 1 } (phase (l.length + 1) bf.expectedItems).1 = none := by rw [e0, h.hE, h1, hrm]
    obtain ⟨c1, c2, c3, c4⟩ := setBit_new hnone (pos hash bf.arraySize 0 x)
    rw [hr, List.foldl_cons, setBits_some hash x _ (by rw [c3, c4]; exact c1) _ (nxt_lt (nxt_lt hs'))]
    dsimp only at c2 ⊢
    have e1 : (phase (l.length + 1) bf.expectedItems).1 = (phase (l.length + 1) E).1 := by rw [h.hE]
    rw [e1] at c2
    rw [c2, e0, h1, (nxt_ne hs).2.2.2, hw]
    rfl

theorem prev_final (hash : Nat → I → UInt64) {k W E : Nat} (hk : 0 < k) (hW : 0 < W) (hE : 0 < E) (os : List (Op I)) {bf : BF} {l : List I}
    (h : Inv hash k W E bf l) (hp : E ≤ l.length → (bf.bits (nxt (nxt (phase l.length E).1))).isSome = true) :
    E ≤ (l ++ Gofer.Spec.Bloom.adds os).length →
      ((final hash bf os).bits (nxt (nxt (phase (l ++ Gofer.Spec.Bloom.adds os).length E).1))).isSome = true := by
  induction os generalizing bf l with
  | nil => simpa [final, Gofer.Spec.Bloom.adds] using hp
  | cons o os ih =>
    cases o with
    | add x =>
      have := ih (inv_add hash hk hW hE h x) (by
        rw [List.length_append]
        exact add_prev hash hk hW hE h hp x)
      rw [List.append_assoc] at this
      exact this
    | contains x =>
      have hc := (contains_of_inv hW hE h x).1
      have : step hash bf (.contains x) = bf := hc
      simp only [final, List.foldl_cons, this, Gofer.Spec.Bloom.adds]
      exact ih h hp

end Gofer.Bloom
