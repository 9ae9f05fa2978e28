import Verif.Proof.BloomRate
import Mathlib.Analysis.SpecialFunctions.Log.Basic
import Mathlib.Analysis.Complex.ExponentialBounds
/-! # Property C197: the rate of false positives of a Bloom filter -/
namespace Gofer.Props.BloomRate
open Gofer.Bloom

/-- C197, as stated: a filter made for `E` items and the rate `p` takes a further item for one of the `n` added ones in at most the part `p` of all cases. -/
def C197_claim : Prop := ∀ (E : Nat) (p : ℝ), 0 < E → 0 < p → p < 1 → ∀ n, rate (sizeHash E p) (sizeWords E p) E n ≤ p

/-- C197. However the positions fall, at most as many bits are set as there are positions of remembered items. -/
theorem C197_upper (k W E n : Nat) (hk : 0 < k) (hW : 0 < W) (hW' : W * 64 < 2 ^ 64) (hE : 0 < E) :
    rate k W E n ≤ ((min n (2 * E + 1) * k : Nat) / ((W * 64 : Nat) : ℝ)) ^ k := by
  refine le_trans (rate_le hk hW hW' hE) ?_
  obtain ⟨_, h2, h3⟩ := window_bounds E hE n
  have : window E n * k ≤ min n (2 * E + 1) * k := Nat.mul_le_mul_right _ (by omega)
  gcongr

/-- C197. The rate is at least what is known from textbooks, for `min n (E + 1)` items. -/
theorem C197_lower (k W E n : Nat) (hk : 0 < k) (hW : 0 < W) (hW' : W * 64 < 2 ^ 64) (hE : 0 < E) :
    (1 - (1 - 1 / ((W * 64 : Nat) : ℝ)) ^ (k * min n (E + 1))) ^ k ≤ rate k W E n := by
  refine le_trans ?_ (le_rate hk hW hW' hE)
  have hM : (0 : ℝ) < ((W * 64 : Nat) : ℝ) := by exact_mod_cast (by omega : 0 < W * 64)
  have e : (((W * 64 - 1 : Nat) : ℝ)) / ((W * 64 : Nat) : ℝ) = 1 - 1 / ((W * 64 : Nat) : ℝ) := by
    rw [Nat.cast_sub (by omega)]; field_simp; simp
  rw [e]
  have h1 : 1 / ((W * 64 : Nat) : ℝ) ≤ 1 := by rw [div_le_one hM]; exact_mod_cast (by omega : 1 ≤ W * 64)
  have h0 : 0 < 1 / ((W * 64 : Nat) : ℝ) := by positivity
  have hb0 : 0 ≤ 1 - 1 / ((W * 64 : Nat) : ℝ) := by linarith
  have hb1 : 1 - 1 / ((W * 64 : Nat) : ℝ) ≤ 1 := by linarith
  have hw := (window_bounds E hE n).1
  have h2 := pow_le_pow_of_le_one hb0 hb1 (Nat.mul_le_mul_left k hw)
  have h3 : (1 - 1 / ((W * 64 : Nat) : ℝ)) ^ (k * min n (E + 1)) ≤ 1 := pow_le_one₀ hb0 hb1
  exact pow_le_pow_left₀ (by linarith) (by linarith) k

/-- The sizes for 1000 items and one in 128: `m` is 10098. -/
theorem size_example : sizeBits 1000 (1 / 128) = 10098 ∧ sizeHash 1000 (1 / 128) = 6 ∧ sizeWords 1000 (1 / 128) = 158 := by
  have hl := Real.log_two_gt_d9
  have hu := Real.log_two_lt_d9
  have hpos : 0 < Real.log 2 := by linarith
  have hlog : Real.log (1 / 128) = -(7 * Real.log 2) := by
    rw [show (1 / 128 : ℝ) = ((2 : ℝ) ^ 7)⁻¹ by norm_num, Real.log_inv, Real.log_pow]; norm_num
  have e : -((1000 : Nat) : ℝ) * Real.log (1 / 128) / (Real.log 2 * Real.log 2) = 7000 / Real.log 2 := by
    rw [hlog]; field_simp; norm_num
  have hb : sizeBits 1000 (1 / 128) = 10098 := by
    unfold sizeBits
    rw [e, Nat.floor_eq_iff (by positivity)]
    constructor
    · rw [le_div_iff₀ hpos]; norm_num; linarith
    · rw [div_lt_iff₀ hpos]; norm_num; linarith
  have hk : ⌊(sizeBits 1000 (1 / 128) : ℝ) / (1000 : Nat) * Real.log 2⌋₊ = 6 := by
    rw [hb, Nat.floor_eq_iff (by positivity)]
    constructor <;> norm_num <;> linarith
  refine ⟨hb, ?_, ?_⟩
  · unfold sizeHash; rw [hk]; rfl
  · unfold sizeWords; rw [hb]

theorem window_example : window 1000 1999 = 1999 := by
  obtain ⟨_, h2, h3⟩ := gens_spec 1000 (by decide) 1999
  have hp : ¬ phase 1999 1000 = phase 0 1000 := by decide
  have ho : off 1000 1999 = 999 := by decide
  unfold window
  rcases h3 with ⟨_, _, _, h⟩ | ⟨h, h' | h'⟩
  · exact absurd h hp
  · exact h'
  · omega

/-- C197. With 1999 items added (so that two generations are looked at) the rate of a filter made for 1000 items and one in 128 is more than one in 9, fourteen times as much. -/
theorem C197_fourteenfold : 14 * (1 / 128 : ℝ) < rate (sizeHash 1000 (1 / 128)) (sizeWords 1000 (1 / 128)) 1000 1999 := by
  obtain ⟨_, h2, h3⟩ := size_example
  rw [h2, h3]
  have h := le_rate (k := 6) (W := 158) (E := 1000) (n := 1999) (by decide) (by decide) (by decide) (by decide)
  rw [window_example] at h
  refine lt_of_lt_of_le ?_ h
  have hN : 10000 * 10111 ^ (6 * 1999) ≤ 3060 * 10112 ^ (6 * 1999) := by decide +kernel
  have hR : ((158 * 64 - 1 : Nat) : ℝ) / ((158 * 64 : Nat) : ℝ) = 10111 / 10112 := by norm_num
  have hq : (((158 * 64 - 1 : Nat) : ℝ) / ((158 * 64 : Nat) : ℝ)) ^ (6 * 1999) ≤ 3060 / 10000 := by
    rw [hR, div_pow, div_le_div_iff₀ (by positivity) (by norm_num)]
    have : ((10000 * 10111 ^ (6 * 1999) : Nat) : ℝ) ≤ ((3060 * 10112 ^ (6 * 1999) : Nat) : ℝ) := by exact_mod_cast hN
    rw [Nat.cast_mul, Nat.cast_mul, Nat.cast_pow, Nat.cast_pow] at this
    generalize hx : ((10111 : Nat) : ℝ) ^ (6 * 1999) = x at this
    generalize hy : ((10112 : Nat) : ℝ) ^ (6 * 1999) = y at this
    push_cast at this
    linarith
  generalize (((158 * 64 - 1 : Nat) : ℝ) / ((158 * 64 : Nat) : ℝ)) ^ (6 * 1999) = q at hq
  have : (694 / 1000 : ℝ) ≤ 1 - q := by linarith
  have h6 := pow_le_pow_left₀ (by norm_num) this 6
  refine lt_of_lt_of_le ?_ h6
  norm_num

/-- C197 is false. -/
theorem C197_claim_false : ¬ C197_claim := by
  intro h
  have h1 := h 1000 (1 / 128) (by decide) (by norm_num) (by norm_num) 1999
  have h2 := C197_fourteenfold
  linarith

/-- C197. There are 1 to 30 hash functions, and one if every second false positive is allowed. -/
theorem C197_sizes (E : Nat) (p : ℝ) (hE : 0 < E) : 1 ≤ sizeHash E p ∧ sizeHash E p ≤ 30 ∧ (1 / 2 ≤ p → p < 1 → sizeHash E p = 1) := by
  have hE0 : (0 : ℝ) < E := by exact_mod_cast hE
  have hpos : 0 < Real.log 2 := by have := Real.log_two_gt_d9; linarith
  refine ⟨?_, ?_, fun hp hp1 => ?_⟩
  · unfold sizeHash; split <;> (try split) <;> omega
  · unfold sizeHash; split <;> (try split) <;> omega
  · have hl : -Real.log p ≤ Real.log 2 := by
      have h := Real.log_le_log (by norm_num) hp
      rw [show (1 / 2 : ℝ) = (2 : ℝ)⁻¹ by norm_num, Real.log_inv] at h
      linarith
    have hlp : Real.log p ≤ 0 := Real.log_nonpos (by linarith) hp1.le
    have h0 : 0 ≤ -(E : ℝ) * Real.log p / (Real.log 2 * Real.log 2) := by
      have : 0 ≤ -(E : ℝ) * Real.log p := by nlinarith
      positivity
    have hm : (sizeBits E p : ℝ) ≤ -(E : ℝ) * Real.log p / (Real.log 2 * Real.log 2) := Nat.floor_le h0
    have h1 : (sizeBits E p : ℝ) / E * Real.log 2 ≤ 1 := by
      have : -(E : ℝ) * Real.log p / (Real.log 2 * Real.log 2) ≤ E / Real.log 2 := by
        rw [div_le_div_iff₀ (by positivity) hpos]
        have : -(E : ℝ) * Real.log p ≤ E * Real.log 2 := by nlinarith
        nlinarith
      have h2 : (sizeBits E p : ℝ) / E ≤ (E / Real.log 2) / E := by gcongr; linarith
      have h3 : (E / Real.log 2) / E * Real.log 2 = 1 := by field_simp
      nlinarith
    have h2 : ⌊(sizeBits E p : ℝ) / E * Real.log 2⌋₊ ≤ 1 := Nat.floor_le_of_le (by simpa using h1)
    unfold sizeHash
    split
    · rfl
    · rw [if_neg (by omega)]; omega

theorem rate_le_one (k W E n : Nat) : rate k W E n ≤ 1 := by
  unfold rate
  refine div_le_one_of_le₀ ?_ (by positivity)
  exact_mod_cast Finset.card_le_univ _

/-- C197, what holds: while at most seven tenths of the items have been added, the rate is at most `4 p`. (If `m` is 0 there are no bits and nothing is ever found.) Missing: more items, and
rates so small that the number of hash functions is limited to 30. -/
theorem C197_rate_partial (E : Nat) (p : ℝ) (hE : 0 < E) (hp : 0 < p) (hp1 : p < 1) (hm : sizeWords E p * 64 < 2 ^ 64) (h30 : sizeHash E p < 30)
    (n : Nat) (hn : 10 * n ≤ 7 * E) : rate (sizeHash E p) (sizeWords E p) E n ≤ 4 * p := by
  have hl := Real.log_two_gt_d9
  have hu := Real.log_two_lt_d9
  have hpos : 0 < Real.log 2 := by linarith
  have hE' : (1 : ℝ) ≤ E := by exact_mod_cast hE
  have hE0 : (0 : ℝ) < E := by linarith
  generalize hmm : sizeBits E p = m at *
  have hm1 : -(E : ℝ) * Real.log p / (Real.log 2 * Real.log 2) < m + 1 := by rw [← hmm]; exact Nat.lt_floor_add_one _
  rw [div_lt_iff₀ (by positivity)] at hm1
  -- `-log p` in terms of the exact number of hash functions
  have hlog : -Real.log p < (m : ℝ) / E * Real.log 2 * Real.log 2 + Real.log 2 * Real.log 2 := by
    have h1 : -Real.log p = (-(E : ℝ) * Real.log p) / E := by field_simp
    have h2 : (-(E : ℝ) * Real.log p) / E < ((m + 1) * (Real.log 2 * Real.log 2)) / E := by gcongr
    have h3 : ((m + 1) * (Real.log 2 * Real.log 2)) / E = (m : ℝ) / E * Real.log 2 * Real.log 2 + (Real.log 2 * Real.log 2) / E := by field_simp
    have h4 : (Real.log 2 * Real.log 2) / E ≤ Real.log 2 * Real.log 2 := div_le_self (by positivity) hE'
    linarith
  have hsq : Real.log 2 * Real.log 2 ≤ Real.log 2 := by nlinarith
  have hfin : ∀ j : Nat, (m : ℝ) / E * Real.log 2 < j + 1 → (1 / 2 : ℝ) ^ j ≤ 4 * p := by
    intro j hj
    have h1 : (m : ℝ) / E * Real.log 2 * Real.log 2 ≤ (j + 1) * Real.log 2 := by gcongr
    rw [← Real.log_le_log_iff (by positivity) (by positivity), Real.log_pow, Real.log_mul (by norm_num) (by positivity),
      show (1 / 2 : ℝ) = (2 : ℝ)⁻¹ by norm_num, Real.log_inv, show (4 : ℝ) = 2 ^ 2 by norm_num, Real.log_pow]
    push_cast
    linarith
  by_cases h0 : ⌊(m : ℝ) / E * Real.log 2⌋₊ = 0
  · have h1 := hfin 0 (by rw [Nat.floor_eq_zero] at h0; simpa using h0)
    exact le_trans (rate_le_one _ _ _ _) (by simpa using h1)
  have hk : sizeHash E p = ⌊(m : ℝ) / E * Real.log 2⌋₊ := by
    unfold sizeHash at h30 ⊢
    rw [hmm] at h30 ⊢
    rw [if_neg h0] at h30 ⊢
    split at h30
    · omega
    · rename_i h; rw [if_neg h]
  have hkle : (sizeHash E p : ℝ) ≤ (m : ℝ) / E * Real.log 2 := by rw [hk]; exact Nat.floor_le (by positivity)
  have hklt : (m : ℝ) / E * Real.log 2 < sizeHash E p + 1 := by rw [hk]; exact Nat.lt_floor_add_one _
  generalize sizeHash E p = k at *
  have hk0 : 0 < k := by omega
  have hmM : m ≤ sizeWords E p * 64 := by unfold sizeWords; rw [hmm]; omega
  generalize sizeWords E p = W at *
  rcases Nat.eq_zero_or_pos W with rfl | hW
  · have : (m : ℝ) = 0 := by exact_mod_cast (by omega : m = 0)
    rw [this] at hkle
    have : (1 : ℝ) ≤ k := by exact_mod_cast hk0
    simp at hkle; omega
  refine le_trans (C197_upper k W E n hk0 hW hm hE) (le_trans ?_ (hfin k hklt))
  have hM : (0 : ℝ) < ((W * 64 : Nat) : ℝ) := by exact_mod_cast (by omega : 0 < W * 64)
  refine pow_le_pow_left₀ (by positivity) ?_ k
  rw [div_le_div_iff₀ hM (by norm_num)]
  have hmM' : (m : ℝ) ≤ ((W * 64 : Nat) : ℝ) := by exact_mod_cast hmM
  have e1 : (k : ℝ) * E ≤ m * Real.log 2 := by
    have : (m : ℝ) / E * Real.log 2 * E = m * Real.log 2 := by field_simp
    nlinarith
  have e2 : ((min n (2 * E + 1) * k : Nat) : ℝ) ≤ (n : ℝ) * k := by exact_mod_cast Nat.mul_le_mul_right k (Nat.min_le_left _ _)
  have e3 : (10 : ℝ) * n ≤ 7 * E := by exact_mod_cast hn
  have hk' : (0 : ℝ) ≤ k := by positivity
  have hm' : (0 : ℝ) ≤ m := by positivity
  nlinarith [mul_le_mul_of_nonneg_right e3 hk', mul_le_mul_of_nonneg_left hu.le hm']

/-! ### Concrete cases: a filter for 1000 items and one in 128, with 700 items. -/

example : rate (sizeHash 1000 (1 / 128)) (sizeWords 1000 (1 / 128)) 1000 700 ≤ 4 * (1 / 128) := by
  obtain ⟨_, h2, h3⟩ := size_example
  exact C197_rate_partial 1000 (1 / 128) (by decide) (by norm_num) (by norm_num) (by rw [h3]; decide) (by rw [h2]; decide) 700 (by decide)

/-- One item, one position of 64: one in 64. -/
example : rate 1 1 1 1 ≤ 1 / 64 := le_trans (C197_upper 1 1 1 1 (by decide) (by decide) (by decide) (by decide)) (by norm_num)
example : 1 / 64 ≤ rate 1 1 1 1 := le_trans (by norm_num) (C197_lower 1 1 1 1 (by decide) (by decide) (by decide) (by decide))

end Gofer.Props.BloomRate
