import Verif.Model.Bloom
import Mathlib.Data.List.Basic
import Mathlib.Tactic.Ring

namespace Gofer.Bloom
open Gofer.Spec.Bloom
variable {I : Type}

/-! ### Bits -/

theorem toBitVec_one_shl (i : Nat) (hi : i < 64) : ((1 : UInt64) <<< i.toUInt64).toBitVec = 1#64 <<< i := by
  rw [UInt64.toBitVec_shiftLeft]
  have : (i.toUInt64.toBitVec % 64) = BitVec.ofNat 64 i := by
    apply BitVec.eq_of_toNat_eq
    have h64 : (64 : BitVec 64).toNat = 64 := rfl
    rw [BitVec.toNat_umod, h64, UInt64.toNat_toBitVec, BitVec.toNat_ofNat, Nat.toUInt64_eq, UInt64.toNat_ofNat']
    omega
  rw [this]
  simp only [BitVec.shiftLeft_eq', BitVec.toNat_ofNat]
  rw [Nat.mod_eq_of_lt (by omega)]
  rfl

theorem and_bit (a : UInt64) (j : Nat) (hj : j < 64) :
    ((a &&& ((1 : UInt64) <<< j.toUInt64)) != 0) = a.toBitVec.getLsbD j := by
  rw [Bool.eq_iff_iff, bne_iff_ne, ne_eq, ← UInt64.toBitVec_inj, UInt64.toBitVec_and, toBitVec_one_shl j hj]
  constructor
  · intro h
    by_contra hc
    apply h
    apply BitVec.eq_of_getLsbD_eq
    intro i hi
    simp only [BitVec.getLsbD_and, BitVec.getLsbD_shiftLeft, UInt64.toBitVec_zero, BitVec.getLsbD_zero, BitVec.getLsbD_one]
    by_cases hij : i = j
    · subst hij
      simp only [Bool.not_eq_true] at hc
      simp [hc]
    · simp only [Bool.and_eq_false_iff]
      right
      by_cases h2 : i < j
      · simp [h2]
      · simp; omega
  · intro h hz
    have h2 := congrArg (fun b => b.getLsbD j) hz
    simp only [BitVec.getLsbD_and, BitVec.getLsbD_shiftLeft, UInt64.toBitVec_zero, BitVec.getLsbD_zero, BitVec.getLsbD_one] at h2
    rw [BitVec.getLsbD_eq_getElem hj] at h
    simp [hj] at h2
    rw [h] at h2
    simp at h2

theorem or_bit (a : UInt64) (i j : Nat) (hi : i < 64) (hj : j < 64) :
    (((a ||| ((1 : UInt64) <<< i.toUInt64)) &&& ((1 : UInt64) <<< j.toUInt64)) != 0) =
    (decide (j = i) || ((a &&& ((1 : UInt64) <<< j.toUInt64)) != 0)) := by
  rw [and_bit _ j hj, and_bit _ j hj, UInt64.toBitVec_or, toBitVec_one_shl i hi]
  simp only [BitVec.getLsbD_or, BitVec.getLsbD_shiftLeft, BitVec.getLsbD_one, hj]
  by_cases hij : j = i
  · subst hij; simp
  · have : ¬ (i ≤ j ∧ j - i = 0) := by omega
    by_cases h2 : j < i
    · simp [h2, hij]
    · simp [hij]
      omega

theorem testIn_set (w : List UInt64) (q q' : Nat) (hq : q < 64 * w.length) :
    testIn (some (w.set (q / 64) (w.getD (q / 64) 0 ||| (1 <<< (q % 64).toUInt64)))) q' =
    (decide (q' = q) || testIn (some w) q') := by
  simp only [testIn]
  have h1 : q / 64 < w.length := by omega
  by_cases hw : q' / 64 = q / 64
  · rw [hw, List.getD_eq_getElem?_getD, List.getElem?_set_self (by omega), Option.getD_some, or_bit _ _ _ (by omega) (by omega)]
    congr 1
    rw [decide_eq_decide]; omega
  · rw [List.getD_eq_getElem?_getD (i := q' / 64), List.getElem?_set_ne (by omega), ← List.getD_eq_getElem?_getD]
    have : q' ≠ q := by rintro rfl; exact hw rfl
    simp [this]

theorem testIn_zero (n q : Nat) : testIn (some (List.replicate n 0)) q = false := by
  simp only [testIn]
  have : (List.replicate n (0 : UInt64)).getD (q / 64) 0 = 0 := by
    rw [List.getD_eq_getElem?_getD, List.getElem?_replicate]
    split <;> rfl
  rw [this]
  simp

/-! ### Window sizes -/

/-- Number of items of the current and of the previous generation after `n` Adds. -/
def gens (E : Nat) : Nat → Nat × Nat
  | 0 => (0, 0)
  | n + 1 => if phase (n + 1) E = phase n E then ((gens E n).1 + 1, (gens E n).2) else (1, (gens E n).1)

/-- Index inside the phase. -/
def off (E n : Nat) : Nat :=
  let f := n % (E * 3 + 1)
  if f < E then f else if f < E * 2 then f - E else f - E * 2

/-- Length of the phase with the given index. -/
def plen (E i : Nat) : Nat := if i = 2 then E + 1 else E

theorem mod_succ_cases (E n : Nat) :
    ((n + 1) % (E * 3 + 1) = n % (E * 3 + 1) + 1 ∧ n % (E * 3 + 1) < E * 3) ∨
    ((n + 1) % (E * 3 + 1) = 0 ∧ n % (E * 3 + 1) = E * 3) := by
  have h := Nat.mod_lt n (show E * 3 + 1 > 0 by omega)
  rcases Nat.lt_or_ge (n % (E * 3 + 1)) (E * 3) with h1 | h1
  · left
    refine ⟨?_, h1⟩
    rw [Nat.add_mod]
    by_cases hE : E = 0
    · subst hE; omega
    · rw [Nat.mod_eq_of_lt (show 1 < E * 3 + 1 by omega), Nat.mod_eq_of_lt (by omega)]
  · right
    have h2 : n % (E * 3 + 1) = E * 3 := by omega
    refine ⟨?_, h2⟩
    have := Nat.div_add_mod n (E * 3 + 1)
    rw [h2] at this
    have h3 : n + 1 = (E * 3 + 1) * (n / (E * 3 + 1) + 1) := by rw [Nat.mul_add]; omega
    rw [h3]; simp

/-- The next phase index. -/
def nxt (i : Nat) : Nat := if i = 0 then 1 else if i = 1 then 2 else 0

theorem phase_shape (n E : Nat) : phase n E = ((phase n E).1, nxt (phase n E).1, nxt (nxt (phase n E).1)) ∧ (phase n E).1 < 3 := by
  unfold phase
  dsimp only
  split
  · simp [nxt]
  · split <;> simp [nxt]

theorem phase_step (n E : Nat) (hE : 0 < E) :
    (phase (n + 1) E = phase n E ∧ off E (n + 1) = off E n + 1 ∧ off E n + 1 < plen E (phase n E).1) ∨
    (phase (n + 1) E ≠ phase n E ∧ (phase (n + 1) E).1 = nxt (phase n E).1 ∧ off E (n + 1) = 0 ∧
      off E n + 1 = plen E (phase n E).1) := by
  unfold phase off plen
  dsimp only
  rcases mod_succ_cases E n with ⟨h1, h2⟩ | ⟨h1, h2⟩
  · rw [h1]
    generalize n % (E * 3 + 1) = f at *
    by_cases a : f < E
    · by_cases b : f + 1 < E
      · left; simp [a, b]
      · right
        have c : f + 1 < E * 2 := by omega
        simp [a, b, c, nxt]; omega
    · by_cases b : f < E * 2
      · have c : ¬ f + 1 < E := by omega
        by_cases d : f + 1 < E * 2
        · left; simp [a, b, c, d]; omega
        · right; simp [a, b, c, d, nxt]; omega
      · have c : ¬ f + 1 < E := by omega
        have d : ¬ f + 1 < E * 2 := by omega
        left; simp [a, b, c, d]; omega
  · rw [h1, h2]
    right
    have a : ¬ E * 3 < E := by omega
    have b : ¬ E * 3 < E * 2 := by omega
    simp [a, b, hE, nxt]; omega

theorem off_lt (E n : Nat) (hE : 0 < E) : off E n < plen E (phase n E).1 := by
  rcases phase_step n E hE with ⟨_, _, h⟩ | ⟨_, _, _, h⟩ <;> omega

theorem phase_zero (E : Nat) (hE : 0 < E) : phase 0 E = (0, 1, 2) := by simp [phase, hE]

theorem gens_spec (E : Nat) (hE : 0 < E) (n : Nat) :
    let c := (gens E n).1
    let p := (gens E n).2
    p ≤ plen E (nxt (nxt (phase n E).1)) ∧ c + p ≤ n ∧
    ((c = n ∧ p = 0 ∧ off E n = n ∧ phase n E = phase 0 E) ∨
     (c = off E n + 1 ∧ (c + p = n ∨ E ≤ p))) := by
  induction n with
  | zero =>
    refine ⟨Nat.zero_le _, by simp [gens], Or.inl ⟨rfl, rfl, ?_, rfl⟩⟩
    simp [off, hE]
  | succ n ih =>
    dsimp only at ih ⊢
    obtain ⟨i1, i2, i3⟩ := ih
    have hlt := off_lt E n hE
    rcases phase_step n E hE with ⟨h1, h2, h3⟩ | ⟨h1, h2, h3, h4⟩
    · rw [show gens E (n + 1) = ((gens E n).1 + 1, (gens E n).2) by simp [gens, h1], h1, h2]
      refine ⟨i1, by dsimp only; omega, ?_⟩
      dsimp only
      rcases i3 with ⟨a, b, c, d⟩ | ⟨a, b⟩
      · left; exact ⟨by omega, b, by omega, d⟩
      · right; exact ⟨by omega, by omega⟩
    · rw [show gens E (n + 1) = (1, (gens E n).1) by simp [gens, h1], h2, h3]
      dsimp only
      have hs := (phase_shape n E).2
      have hn : nxt (nxt (nxt (phase n E).1)) = (phase n E).1 := by
        unfold nxt
        have : (phase n E).1 = 0 ∨ (phase n E).1 = 1 ∨ (phase n E).1 = 2 := by omega
        rcases this with h | h | h <;> rw [h] <;> rfl
      have hpl : E ≤ plen E (phase n E).1 := by unfold plen; split <;> omega
      rw [hn]
      rcases i3 with ⟨a, b, c, d⟩ | ⟨a, b⟩
      · exact ⟨by omega, by omega, Or.inr ⟨rfl, Or.inl (by omega)⟩⟩
      · exact ⟨by omega, by omega, Or.inr ⟨rfl, Or.inr (by omega)⟩⟩

/-- Number of remembered Adds. -/
def window (E n : Nat) : Nat := (gens E n).1 + (gens E n).2

theorem window_bounds (E : Nat) (hE : 0 < E) (n : Nat) : min n (E + 1) ≤ window E n ∧ window E n ≤ 2 * E + 1 ∧ window E n ≤ n := by
  obtain ⟨h1, h2, h3⟩ := gens_spec E hE n
  have h4 := off_lt E n hE
  have hs := (phase_shape n E).2
  have h5 : plen E (phase n E).1 + plen E (nxt (nxt (phase n E).1)) ≤ 2 * E + 1 := by
    have : (phase n E).1 = 0 ∨ (phase n E).1 = 1 ∨ (phase n E).1 = 2 := by omega
    rcases this with h | h | h <;> rw [h] <;> simp [plen, nxt] <;> omega
  unfold window
  refine ⟨?_, ?_, h2⟩
  · rcases h3 with ⟨a, b, c, d⟩ | ⟨a, b⟩
    · omega
    · rcases b with b | b <;> omega
  · rcases h3 with ⟨a, b, c, d⟩ | ⟨a, b⟩ <;> omega

/-! ### Invariant -/

/-- The bits of `b` are exactly the positions of the items of `l`. -/
def Holds (k : Nat) (ps : Nat → I → Nat) (b : Option (List UInt64)) (l : List I) : Prop :=
  ∀ q, testIn b q = true ↔ ∃ y ∈ l, ∃ j < k, ps j y = q

/-- `cur` and `prv` are the items of the current and the previous generation. -/
structure Inv (hash : Nat → I → UInt64) (k W E : Nat) (bf : BF) (l : List I) : Prop where
  hk : bf.hashCount = k
  hW : bf.arraySize = W
  hE : bf.expectedItems = E
  hn : bf.numCount = l.length
  cur : ∃ w, bf.bits (phase bf.numCount E).1 = some w ∧ w.length = W ∧
    Holds k (pos hash W) (some w) (last (gens E l.length).1 l)
  prv : Holds k (pos hash W) (bf.bits (nxt (nxt (phase bf.numCount E).1)))
    ((last (window E l.length) l).take (gens E l.length).2)
  rm : bf.bits (nxt (phase bf.numCount E).1) = none

theorem bits_setBits (bf : BF) (i j : Nat) (v : Option (List UInt64)) (hi : i < 3) (hj : j < 3) :
    (bf.setBits i v).bits j = if j = i then v else bf.bits j := by
  have h1 : i = 0 ∨ i = 1 ∨ i = 2 := by omega
  have h2 : j = 0 ∨ j = 1 ∨ j = 2 := by omega
  rcases h1 with rfl | rfl | rfl <;> rcases h2 with rfl | rfl | rfl <;> rfl

theorem setBits_fields (bf : BF) (i : Nat) (v : Option (List UInt64)) :
    (bf.setBits i v).hashCount = bf.hashCount ∧ (bf.setBits i v).arraySize = bf.arraySize ∧
    (bf.setBits i v).expectedItems = bf.expectedItems ∧ (bf.setBits i v).numCount = bf.numCount := by
  unfold BF.setBits
  split <;> exact ⟨rfl, rfl, rfl, rfl⟩

theorem nxt_lt {i : Nat} (h : i < 3) : nxt i < 3 := by unfold nxt; split <;> (try split) <;> omega

theorem nxt_ne {i : Nat} (h : i < 3) : nxt i ≠ i ∧ nxt (nxt i) ≠ i ∧ nxt (nxt i) ≠ nxt i ∧ nxt (nxt (nxt i)) = i := by
  have : i = 0 ∨ i = 1 ∨ i = 2 := by omega
  rcases this with rfl | rfl | rfl <;> decide

theorem getBitIndex_of_some {bf : BF} {w : List UInt64} (h : bf.bits (phase bf.numCount bf.expectedItems).1 = some w) :
    getBitIndex bf = (bf, (phase bf.numCount bf.expectedItems).1, nxt (nxt (phase bf.numCount bf.expectedItems).1)) := by
  unfold getBitIndex
  rw [(phase_shape bf.numCount bf.expectedItems).1]
  simp only [h]

theorem getBitIndex_of_none {bf : BF} (h : bf.bits (phase bf.numCount bf.expectedItems).1 = none) :
    getBitIndex bf = ((bf.setBits (phase bf.numCount bf.expectedItems).1 (some (List.replicate bf.arraySize 0))).setBits
      (nxt (phase bf.numCount bf.expectedItems).1) none,
      (phase bf.numCount bf.expectedItems).1, nxt (nxt (phase bf.numCount bf.expectedItems).1)) := by
  unfold getBitIndex
  rw [(phase_shape bf.numCount bf.expectedItems).1]
  simp only [h]

/-- What one `Add` does after the counter moved, on a filter whose current array exists. -/
theorem setBits_loop (hash : Nat → I → UInt64) (x : I) (ps : List Nat) (bf : BF) (w : List UInt64) (W : Nat) (hW : 0 < W)
    (hw : bf.bits (phase bf.numCount bf.expectedItems).1 = some w) (hl : w.length = W) (ha : bf.arraySize = W) :
    let bf' := ps.foldl (fun bf i => setBit bf (pos hash bf.arraySize i x)) bf
    bf'.hashCount = bf.hashCount ∧ bf'.arraySize = bf.arraySize ∧ bf'.expectedItems = bf.expectedItems ∧ bf'.numCount = bf.numCount ∧
    (∀ j < 3, j ≠ (phase bf.numCount bf.expectedItems).1 → bf'.bits j = bf.bits j) ∧
    ∃ w', bf'.bits (phase bf.numCount bf.expectedItems).1 = some w' ∧ w'.length = W ∧
      ∀ q, testIn (some w') q = true ↔ (∃ i ∈ ps, pos hash W i x = q) ∨ testIn (some w) q = true := by
  induction ps generalizing bf w with
  | nil => exact ⟨rfl, rfl, rfl, rfl, fun _ _ _ => rfl, w, hw, hl, by simp⟩
  | cons i ps ih =>
    have hs := (phase_shape bf.numCount bf.expectedItems).2
    have e : setBit bf (pos hash bf.arraySize i x) = bf.setBits (phase bf.numCount bf.expectedItems).1
        (some (w.set (pos hash W i x / 64) (w.getD (pos hash W i x / 64) 0 ||| (1 <<< (pos hash W i x % 64).toUInt64)))) := by
      unfold setBit
      rw [getBitIndex_of_some hw, ha]
      simp only [hw]
    obtain ⟨f1, f2, f3, f4⟩ := setBits_fields bf (phase bf.numCount bf.expectedItems).1
        (some (w.set (pos hash W i x / 64) (w.getD (pos hash W i x / 64) 0 ||| (1 <<< (pos hash W i x % 64).toUInt64))))
    rw [← e] at f1 f2 f3 f4
    have hb : ∀ j < 3, (setBit bf (pos hash bf.arraySize i x)).bits j = if j = (phase bf.numCount bf.expectedItems).1 then
        some (w.set (pos hash W i x / 64) (w.getD (pos hash W i x / 64) 0 ||| (1 <<< (pos hash W i x % 64).toUInt64))) else bf.bits j := by
      intro j hj; rw [e]; exact bits_setBits _ _ _ _ hs hj
    rw [List.foldl_cons]
    have hq : pos hash W i x < 64 * w.length := by
      rw [hl, Nat.mul_comm]
      exact Nat.mod_lt _ (by omega)
    obtain ⟨g1, g2, g3, g4, g5, w', g6, g7, g8⟩ := ih (setBit bf (pos hash bf.arraySize i x)) _
      (by rw [f3, f4, hb _ hs, if_pos rfl]) (by rw [List.length_set]; exact hl) (by rw [f2]; exact ha)
    rw [f3, f4] at g5 g6
    refine ⟨g1.trans f1, g2.trans f2, g3.trans f3, g4.trans f4, ?_, w', g6, g7, ?_⟩
    · intro j hj hne
      rw [g5 j hj hne, hb j hj, if_neg hne]
    · intro q
      rw [g8 q, testIn_set _ _ _ hq]
      simp only [Bool.or_eq_true, decide_eq_true_eq, List.mem_cons, exists_eq_or_imp]
      constructor
      · rintro (h | rfl | h)
        · exact Or.inl (Or.inr h)
        · exact Or.inl (Or.inl rfl)
        · exact Or.inr h
      · rintro ((rfl | h) | h)
        · exact Or.inr (Or.inl rfl)
        · exact Or.inl h
        · exact Or.inr (Or.inr h)

theorem last_append_one (n : Nat) (l : List I) (x : I) (hn : n ≤ l.length) : last (n + 1) (l ++ [x]) = last n l ++ [x] := by
  unfold last
  rw [List.length_append, List.length_singleton, Nat.add_sub_add_right, List.drop_append_of_le_length (by omega)]

theorem last_split (a b : Nat) (l : List I) (h : a + b ≤ l.length) :
    last (a + b) l = (last (a + b) l).take b ++ last a l := by
  unfold last
  have e : l.drop (l.length - a) = (l.drop (l.length - (a + b))).drop b := by
    rw [List.drop_drop]; congr 1; omega
  rw [e, List.take_append_drop]

theorem inv_add (hash : Nat → I → UInt64) {k W E : Nat} (hk : 0 < k) (hW : 0 < W) (hE : 0 < E) {bf : BF} {l : List I}
    (h : Inv hash k W E bf l) (x : I) : Inv hash k W E (add hash bf x) (l ++ [x]) := by
  obtain ⟨w, c1, c2, c3⟩ := h.cur
  obtain ⟨b1, b2, b3⟩ := gens_spec E hE l.length
  have hs := (phase_shape bf.numCount E).2
  have hlen : (l ++ [x]).length = l.length + 1 := by simp
  have hadd : add hash bf x = (List.range k).foldl (fun bf i => setBit bf (pos hash bf.arraySize i x)) { bf with numCount := bf.numCount + 1 } := by
    unfold add
    dsimp only
    rw [if_neg (by rw [h.hW]; omega), h.hk]
  rcases phase_step bf.numCount E hE with ⟨p1, _, _⟩ | ⟨p1, p2, _, _⟩
  · -- same phase
    obtain ⟨g1, g2, g3, g4, g5, w', g6, g7, g8⟩ := setBits_loop hash x (List.range k) { bf with numCount := bf.numCount + 1 } w W hW
      (by
        dsimp only
        rw [h.hE, p1]
        exact c1) c2 h.hW
    rw [← hadd] at g1 g2 g3 g4 g5 g6
    dsimp only at g1 g2 g3 g4 g5 g6
    rw [h.hE, p1] at g5 g6
    have hg : gens E (l.length + 1) = ((gens E l.length).1 + 1, (gens E l.length).2) := by
      rw [h.hn] at p1
      simp [gens, p1]
    refine ⟨g1.trans h.hk, g2.trans h.hW, g3.trans h.hE, by rw [g4, hlen, h.hn], ?_, ?_, ?_⟩
    · rw [g4, p1, hlen, hg]
      refine ⟨w', g6, g7, ?_⟩
      intro q
      dsimp only
      rw [g8 q, c3 q, last_append_one _ _ _ (by omega)]
      constructor
      · rintro (⟨i, hi, he⟩ | ⟨y, hy, hj⟩)
        · exact ⟨x, by simp, i, List.mem_range.1 hi, he⟩
        · exact ⟨y, List.mem_append_left _ hy, hj⟩
      · rintro ⟨y, hy, j, hj, he⟩
        rcases List.mem_append.1 hy with hy | hy
        · exact Or.inr ⟨y, hy, j, hj, he⟩
        · rw [List.mem_singleton.1 hy] at he
          exact Or.inl ⟨j, List.mem_range.2 hj, he⟩
    · rw [g4, p1, hlen, hg, g5 _ (nxt_lt (nxt_lt hs)) (nxt_ne hs).2.1]
      have := h.prv
      rw [show window E (l.length + 1) = window E l.length + 1 by simp only [window, hg]; omega,
        last_append_one _ _ _ (by unfold window; omega)]
      dsimp only
      rw [List.take_append_of_le_length]
      · exact this
      · unfold last window
        rw [List.length_drop]; omega
    · rw [g4, p1, g5 _ (nxt_lt hs) (nxt_ne hs).1]
      exact h.rm
  · -- new phase
    have hs' : (phase (bf.numCount + 1) E).1 < 3 := (phase_shape _ _).2
    obtain ⟨k', rfl⟩ : ∃ k', k = k' + 1 := ⟨k - 1, by omega⟩
    -- the first setBit rotates; replace the start by the rotated filter
    have hnone : ({ bf with numCount := bf.numCount + 1 } : BF).bits (phase (bf.numCount + 1) E).1 = none := by
      rw [p2]; exact h.rm
    have hrot : getBitIndex { bf with numCount := bf.numCount + 1 } =
        ((({ bf with numCount := bf.numCount + 1 } : BF).setBits (phase (bf.numCount + 1) E).1 (some (List.replicate bf.arraySize 0))).setBits
          (nxt (phase (bf.numCount + 1) E).1) none, (phase (bf.numCount + 1) E).1, nxt (nxt (phase (bf.numCount + 1) E).1)) := by
      have := getBitIndex_of_none (bf := { bf with numCount := bf.numCount + 1 }) (by dsimp only; rw [h.hE]; exact hnone)
      dsimp only at this
      rw [this, h.hE]
    generalize hbf1 : (({ bf with numCount := bf.numCount + 1 } : BF).setBits (phase (bf.numCount + 1) E).1 (some (List.replicate bf.arraySize 0))).setBits
      (nxt (phase (bf.numCount + 1) E).1) none = bf1 at hrot
    have r1 : bf1.hashCount = bf.hashCount ∧ bf1.arraySize = bf.arraySize ∧ bf1.expectedItems = bf.expectedItems ∧ bf1.numCount = bf.numCount + 1 := by
      obtain ⟨a1, a2, a3, a4⟩ := setBits_fields (({ bf with numCount := bf.numCount + 1 } : BF).setBits (phase (bf.numCount + 1) E).1 (some (List.replicate bf.arraySize 0))) (nxt (phase (bf.numCount + 1) E).1) none
      obtain ⟨d1, d2, d3, d4⟩ := setBits_fields ({ bf with numCount := bf.numCount + 1 } : BF) (phase (bf.numCount + 1) E).1 (some (List.replicate bf.arraySize 0))
      rw [← hbf1]
      exact ⟨a1.trans d1, a2.trans d2, a3.trans d3, a4.trans d4⟩
    have hb1 : ∀ j < 3, bf1.bits j = if j = nxt (phase (bf.numCount + 1) E).1 then none else
        if j = (phase (bf.numCount + 1) E).1 then some (List.replicate W 0) else bf.bits j := by
      intro j hj
      rw [← hbf1, bits_setBits _ _ _ _ (nxt_lt hs') hj, bits_setBits _ _ _ _ hs' hj, h.hW]
      rfl
    have hcur1 : bf1.bits (phase bf1.numCount bf1.expectedItems).1 = some (List.replicate W 0) := by
      rw [r1.2.2.1, r1.2.2.2, h.hE, hb1 _ hs', if_neg (nxt_ne hs').1.symm, if_pos rfl]
    have hstart : add hash bf x = (List.range (k' + 1)).foldl (fun bf i => setBit bf (pos hash bf.arraySize i x)) bf1 := by
      rw [hadd, List.range_succ_eq_map, List.foldl_cons, List.foldl_cons]
      congr 1
      have : ∀ q, setBit { bf with numCount := bf.numCount + 1 } q = setBit bf1 q := by
        intro q
        unfold setBit
        rw [hrot, getBitIndex_of_some hcur1, r1.2.2.1, r1.2.2.2, h.hE]
      rw [this, r1.2.1]
    obtain ⟨g1, g2, g3, g4, g5, w', g6, g7, g8⟩ := setBits_loop hash x (List.range (k' + 1)) bf1 _ W hW hcur1 (by simp) (r1.2.1.trans h.hW)
    rw [← hstart] at g1 g2 g3 g4 g5 g6
    rw [r1.2.2.1, r1.2.2.2, h.hE] at g5 g6
    have hg : gens E (l.length + 1) = (1, (gens E l.length).1) := by
      rw [h.hn] at p1
      simp [gens, p1]
    have hnx := nxt_ne hs
    refine ⟨g1.trans (r1.1.trans h.hk), g2.trans (r1.2.1.trans h.hW), g3.trans (r1.2.2.1.trans h.hE), by rw [g4, hlen, r1.2.2.2, h.hn], ?_, ?_, ?_⟩
    · rw [g4, r1.2.2.2, hlen, hg]
      refine ⟨w', g6, g7, ?_⟩
      intro q
      dsimp only
      rw [g8 q, testIn_zero, show (1 : Nat) = 0 + 1 from rfl, last_append_one _ _ _ (by omega)]
      constructor
      · rintro (⟨i, hi, he⟩ | hf)
        · exact ⟨x, by simp, i, List.mem_range.1 hi, he⟩
        · simp at hf
      · rintro ⟨y, hy, j, hj, he⟩
        rcases List.mem_append.1 hy with hy | hy
        · simp [last] at hy
        · rw [List.mem_singleton.1 hy] at he
          exact Or.inl ⟨j, List.mem_range.2 hj, he⟩
    · have hprev : nxt (nxt (phase (bf.numCount + 1) E).1) = (phase bf.numCount E).1 := by
        rw [p2]; exact hnx.2.2.2
      rw [g4, r1.2.2.2, hlen, hg, g5 _ (nxt_lt (nxt_lt hs')) (nxt_ne hs').2.1, hb1 _ (nxt_lt (nxt_lt hs')),
        if_neg (nxt_ne hs').2.2.1, if_neg (nxt_ne hs').2.1, hprev, c1]
      rw [show window E (l.length + 1) = (gens E l.length).1 + 1 by simp only [window, hg]; omega, last_append_one _ _ _ (by omega)]
      dsimp only
      rw [List.take_append_of_le_length (by unfold last; rw [List.length_drop]; omega), List.take_of_length_le (by unfold last; rw [List.length_drop]; omega)]
      exact c3
    · rw [g4, r1.2.2.2, g5 _ (nxt_lt hs') (nxt_ne hs').1, hb1 _ (nxt_lt hs'), if_pos rfl]

theorem inv_new (hash : Nat → I → UInt64) {k W E : Nat} (hE : 0 < E) : Inv hash k W E (new k W E) ([] : List I) := by
  have hp := phase_zero E hE
  have e : new k W E = ⟨some (List.replicate W 0), none, none, k, 0, W, E⟩ := by
    unfold new
    rw [getBitIndex_of_none (by dsimp only; rw [hp]; rfl)]
    dsimp only
    rw [hp]
    rfl
  rw [e]
  refine ⟨rfl, rfl, rfl, rfl, ?_, ?_, ?_⟩
  · dsimp only
    rw [hp]
    refine ⟨_, rfl, by simp, ?_⟩
    intro q
    rw [testIn_zero]; simp [last]
  · dsimp only
    rw [hp]
    intro q
    have : BF.bits ⟨some (List.replicate W 0), none, none, k, 0, W, E⟩ (nxt (nxt 0)) = none := rfl
    rw [this]
    simp [testIn, last]
  · dsimp only
    rw [hp]
    rfl

theorem testBit_of_inv {hash : Nat → I → UInt64} {k W E : Nat} (hE : 0 < E) {bf : BF} {l : List I} (h : Inv hash k W E bf l) (q : Nat) :
    (testBit bf q).1 = bf ∧ ((testBit bf q).2 = true ↔ ∃ y ∈ last (window E l.length) l, ∃ j < k, pos hash W j y = q) := by
  obtain ⟨w, c1, c2, c3⟩ := h.cur
  have hg := getBitIndex_of_some (bf := bf) (w := w) (by rw [h.hE]; exact c1)
  unfold testBit
  rw [hg]
  refine ⟨rfl, ?_⟩
  dsimp only
  rw [h.hE, c1, Bool.or_eq_true, c3 q, h.prv q]
  have hb := (gens_spec E hE l.length).2.1
  have hsp := last_split (gens E l.length).1 (gens E l.length).2 l hb
  constructor
  · rintro (⟨y, hy, hj⟩ | ⟨y, hy, hj⟩)
    · refine ⟨y, ?_, hj⟩
      unfold window; rw [hsp]; exact List.mem_append_right _ hy
    · exact ⟨y, List.mem_of_mem_take hy, hj⟩
  · rintro ⟨y, hy, hj⟩
    unfold window at hy
    rw [hsp] at hy
    rcases List.mem_append.1 hy with hy | hy
    · exact Or.inr ⟨y, hy, hj⟩
    · exact Or.inl ⟨y, hy, hj⟩

theorem containsLoop_of_inv {hash : Nat → I → UInt64} {k W E : Nat} (hE : 0 < E) {bf : BF} {l : List I} (h : Inv hash k W E bf l) (x : I)
    (is : List Nat) :
    (containsLoop hash x is bf).1 = bf ∧ ((containsLoop hash x is bf).2 = true ↔
      ∀ i ∈ is, ∃ y ∈ last (window E l.length) l, ∃ j < k, pos hash W j y = pos hash W i x) := by
  induction is with
  | nil => simp [containsLoop]
  | cons i is ih =>
    obtain ⟨h1, h2⟩ := testBit_of_inv hE h (pos hash bf.arraySize i x)
    rw [h.hW] at h1 h2
    rcases ht : testBit bf (pos hash bf.arraySize i x) with ⟨bf', b⟩
    rw [h.hW] at ht
    rw [ht] at h1 h2
    dsimp only at h1 h2
    subst h1
    simp only [containsLoop, h.hW, ht, List.forall_mem_cons]
    cases b with
    | true =>
      refine ⟨ih.1, ?_⟩
      rw [ih.2]
      simp only [true_iff] at h2
      exact ⟨fun h => ⟨h2, h⟩, fun h => h.2⟩
    | false =>
      refine ⟨rfl, ?_⟩
      simp only [Bool.false_eq_true, false_iff] at h2 ⊢
      exact fun hc => h2 hc.1

theorem contains_of_inv {hash : Nat → I → UInt64} {k W E : Nat} (hW : 0 < W) (hE : 0 < E) {bf : BF} {l : List I} (h : Inv hash k W E bf l) (x : I) :
    (contains hash bf x).1 = bf ∧ ((contains hash bf x).2 = true ↔ Hit k (pos hash W) (last (window E l.length) l) x) := by
  unfold contains
  rw [if_neg (by rw [h.hW]; omega), h.hk]
  obtain ⟨h1, h2⟩ := containsLoop_of_inv hE h x (List.range k)
  refine ⟨h1, ?_⟩
  rw [h2]
  simp only [List.mem_range, Hit]

theorem inv_final (hash : Nat → I → UInt64) {k W E : Nat} (hk : 0 < k) (hW : 0 < W) (hE : 0 < E) (os : List (Op I)) {bf : BF} {l : List I}
    (h : Inv hash k W E bf l) : Inv hash k W E (final hash bf os) (l ++ adds os) := by
  induction os generalizing bf l with
  | nil => simpa [final, adds] using h
  | cons o os ih =>
    cases o with
    | add x =>
      have := ih (inv_add hash hk hW hE h x)
      rw [List.append_assoc] at this
      exact this
    | contains x =>
      have hc := (contains_of_inv hW hE h x).1
      have : step hash bf (.contains x) = bf := hc
      simp only [final, List.foldl_cons, this, adds]
      exact ih h

/-! ### Concurrent Adds -/

theorem bitOf_upd {words : Nat → UInt64} {i q : Nat} :
    bitOf (fun k => if k = i / 64 then words (i / 64) ||| (1 <<< (i % 64).toUInt64) else words k) q = (decide (q = i) || bitOf words q) := by
  unfold bitOf
  by_cases hw : q / 64 = i / 64
  · simp only [hw, if_true]
    rw [or_bit _ _ _ (by omega) (by omega)]
    congr 1
    rw [decide_eq_decide]; omega
  · have : q ≠ i := by rintro rfl; exact hw rfl
    simp [hw, this]

/-- Invariant of concurrent Adds whose goroutines touch different words. -/
structure CInv {n : Nat} (w0 : Nat → UInt64) (todo0 : Fin n → List Nat) (s : Conc n) : Prop where
  done : ∀ g, ∃ d, todo0 g = d ++ (s.thr g).todo ∧ ∀ q ∈ d, bitOf s.words q = true
  loaded : ∀ g i is w, s.thr g = ⟨i :: is, some w⟩ → w = s.words (i / 64)
  keep : ∀ q, bitOf w0 q = true → bitOf s.words q = true

theorem cinv_act {n : Nat} {w0 : Nat → UInt64} {todo0 : Fin n → List Nat}
    (hd : ∀ g g', g ≠ g' → ∀ q ∈ todo0 g, ∀ q' ∈ todo0 g', q / 64 ≠ q' / 64)
    {s s' : Conc n} (h : CInv w0 todo0 s) (a : Act n) (ha : s.act a = some s') : CInv w0 todo0 s' := by
  cases a with
  | load g =>
    simp only [Conc.act] at ha
    split at ha
    · rename_i i is hg
      obtain rfl := Option.some.inj ha
      refine ⟨?_, ?_, h.keep⟩
      · intro j
        obtain ⟨d, h1, h2⟩ := h.done j
        refine ⟨d, ?_, h2⟩
        dsimp only
        by_cases hj : j = g
        · subst hj; rw [if_pos rfl, h1, hg]
        · rw [if_neg hj, h1]
      · intro j i' is' w' hj
        dsimp only at hj
        by_cases hjg : j = g
        · rw [if_pos hjg] at hj
          simp only [Thread.mk.injEq, List.cons.injEq, Option.some.injEq] at hj
          obtain ⟨⟨rfl, _⟩, rfl⟩ := hj
          rfl
        · rw [if_neg hjg] at hj
          exact h.loaded j i' is' w' hj
    · simp at ha
  | store g =>
    simp only [Conc.act] at ha
    split at ha
    · rename_i i is w hg
      obtain rfl := Option.some.inj ha
      have hw := h.loaded g i is w hg
      subst hw
      have hi : i ∈ todo0 g := by
        obtain ⟨d, h1, _⟩ := h.done g
        rw [h1, hg]; simp
      refine ⟨?_, ?_, ?_⟩
      · intro j
        obtain ⟨d, h1, h2⟩ := h.done j
        dsimp only
        by_cases hj : j = g
        · subst hj
          refine ⟨d ++ [i], ?_, ?_⟩
          · rw [if_pos rfl, h1, hg]; simp
          · intro q hq
            rw [bitOf_upd]
            rcases List.mem_append.1 hq with hq | hq
            · simp [h2 q hq]
            · simp [List.mem_singleton.1 hq]
        · refine ⟨d, by rw [if_neg hj, h1], ?_⟩
          intro q hq
          rw [bitOf_upd, h2 q hq]; simp
      · intro j i' is' w' hj
        dsimp only at hj ⊢
        by_cases hjg : j = g
        · rw [if_pos hjg] at hj
          simp at hj
        · rw [if_neg hjg] at hj
          have hi' : i' ∈ todo0 j := by
            obtain ⟨d, h1, _⟩ := h.done j
            rw [h1, hj]; simp
          rw [if_neg (hd j g hjg i' hi' i hi)]
          exact h.loaded j i' is' w' hj
      · intro q hq
        rw [bitOf_upd, h.keep q hq]; simp
    · simp at ha

theorem cinv_exec {n : Nat} {w0 : Nat → UInt64} {todo0 : Fin n → List Nat}
    (hd : ∀ g g', g ≠ g' → ∀ q ∈ todo0 g, ∀ q' ∈ todo0 g', q / 64 ≠ q' / 64)
    (as : List (Act n)) {s s' : Conc n} (h : CInv w0 todo0 s) (he : s.exec as = some s') : CInv w0 todo0 s' := by
  induction as generalizing s with
  | nil =>
    simp only [Conc.exec, Option.some.injEq] at he
    exact he ▸ h
  | cons a as ih =>
    simp only [Conc.exec, Option.bind_eq_some_iff] at he
    obtain ⟨s1, h1, h2⟩ := he
    exact ih (cinv_act hd h a h1) h2

end Gofer.Bloom
