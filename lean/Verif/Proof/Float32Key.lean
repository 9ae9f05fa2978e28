import Verif.Model.Float32Key
import Verif.Spec.Float32
/-! # `float32` keys: helper lemmas -/
namespace Gofer.LimitHashMap
open Gofer.Spec.Float32

theorem parts64 {s E F : Nat} (hs : s < 2) (hE : E < 2048) (hF : F < 2 ^ 52) :
    (s * 2 ^ 63 + E * 2 ^ 52 + F) / 2 ^ 63 = s ∧ (s * 2 ^ 63 + E * 2 ^ 52 + F) / 2 ^ 52 % 2048 = E ∧ (s * 2 ^ 63 + E * 2 ^ 52 + F) % 2 ^ 52 = F ∧
    s * 2 ^ 63 + E * 2 ^ 52 + F < 2 ^ 64 := by
  refine ⟨by omega, by omega, by omega, by omega⟩

theorem log2_facts {f : Nat} (h0 : f ≠ 0) (h : f < 2 ^ 23) : f.log2 < 23 ∧ 2 ^ f.log2 ≤ f ∧ f < 2 ^ (f.log2 + 1) :=
  ⟨(Nat.log2_lt h0).2 h, Nat.log2_self_le h0, Nat.lt_log2_self⟩

theorem low_frac {f : Nat} (h0 : f ≠ 0) (h : f < 2 ^ 23) : (f - 2 ^ f.log2) * 2 ^ (52 - f.log2) < 2 ^ 52 := by
  obtain ⟨a, b, c⟩ := log2_facts h0 h
  have e : 2 ^ 52 = 2 ^ f.log2 * 2 ^ (52 - f.log2) := by rw [← Nat.pow_add]; congr 1; omega
  rw [e]
  apply Nat.mul_lt_mul_of_pos_right _ (Nat.two_pow_pos _)
  rw [Nat.pow_succ] at c
  omega

/-- The three fields of the result. -/
theorem widen_parts {k : Nat} (hk : k < 2 ^ 32) : ∃ E F, widen k = k / 2 ^ 31 * 2 ^ 63 + E * 2 ^ 52 + F ∧ E < 2048 ∧ F < 2 ^ 52 ∧
    ((k / 2 ^ 23 % 256 = 255 ∧ E = 2047 ∧ F = if k % 2 ^ 23 = 0 then 0 else 2 ^ 51 + k % 2 ^ 23 % 2 ^ 22 * 2 ^ 29) ∨
     (k / 2 ^ 23 % 256 = 0 ∧ k % 2 ^ 23 = 0 ∧ E = 0 ∧ F = 0) ∨
     (k / 2 ^ 23 % 256 = 0 ∧ k % 2 ^ 23 ≠ 0 ∧ E = (k % 2 ^ 23).log2 + 874 ∧ F = (k % 2 ^ 23 - 2 ^ (k % 2 ^ 23).log2) * 2 ^ (52 - (k % 2 ^ 23).log2)) ∨
     (k / 2 ^ 23 % 256 ≠ 255 ∧ k / 2 ^ 23 % 256 ≠ 0 ∧ E = k / 2 ^ 23 % 256 + 896 ∧ F = k % 2 ^ 23 * 2 ^ 29)) := by
  have hf : k % 2 ^ 23 < 2 ^ 23 := Nat.mod_lt _ (by decide)
  have he : k / 2 ^ 23 % 256 < 256 := Nat.mod_lt _ (by decide)
  unfold widen
  dsimp only
  by_cases h1 : k / 2 ^ 23 % 256 = 255
  · rw [if_pos h1]
    refine ⟨_, _, rfl, by decide, ?_, .inl ⟨h1, rfl, rfl⟩⟩
    split <;> omega
  · rw [if_neg h1]
    by_cases h2 : k / 2 ^ 23 % 256 = 0
    · rw [if_pos h2]
      by_cases h3 : k % 2 ^ 23 = 0
      · rw [if_pos h3]
        exact ⟨0, 0, by omega, by decide, by decide, .inr (.inl ⟨h2, h3, rfl, rfl⟩)⟩
      · rw [if_neg h3]
        have l := (log2_facts h3 hf).1
        exact ⟨_, _, rfl, by omega, low_frac h3 hf, .inr (.inr (.inl ⟨h2, h3, rfl, rfl⟩))⟩
    · rw [if_neg h2]
      exact ⟨_, _, rfl, by omega, by omega, .inr (.inr (.inr ⟨h1, h2, rfl, rfl⟩))⟩

theorem widen_lt {k : Nat} (hk : k < 2 ^ 32) : widen k < 2 ^ 64 := by
  obtain ⟨E, F, e, hE, hF, _⟩ := widen_parts hk
  rw [e]
  exact (parts64 (by omega) hE hF).2.2.2

theorem hashFloat32_toNat (b : BitVec 32) : (hashFloat32 b).toNat = widen b.toNat := by
  unfold hashFloat32
  rw [UInt64.toNat_ofNat', Nat.mod_eq_of_lt (widen_lt b.isLt)]

theorem low_value {f : Nat} (h0 : f ≠ 0) (h : f < 2 ^ 23) :
    (2 ^ 52 + (f - 2 ^ f.log2) * 2 ^ (52 - f.log2)) * 2 ^ (f.log2 + 874 - 1) = f * 2 ^ 925 := by
  obtain ⟨a, b, c⟩ := log2_facts h0 h
  have e : 2 ^ 52 = 2 ^ f.log2 * 2 ^ (52 - f.log2) := by rw [← Nat.pow_add]; congr 1; omega
  rw [show (2 ^ 52 + (f - 2 ^ f.log2) * 2 ^ (52 - f.log2)) = f * 2 ^ (52 - f.log2) by
    rw [e, ← Nat.add_mul]; congr 1; omega]
  rw [Nat.mul_assoc, ← Nat.pow_add, show 52 - f.log2 + (f.log2 + 874 - 1) = 925 by omega]

theorem normal_value (f e : Nat) (h : e ≠ 0) : (2 ^ 52 + f * 2 ^ 29) * 2 ^ (e + 896 - 1) = (2 ^ 23 + f) * 2 ^ (e - 1) * 2 ^ 925 := by
  rw [show 2 ^ 52 + f * 2 ^ 29 = (2 ^ 23 + f) * 2 ^ 29 by rw [Nat.add_mul], Nat.mul_assoc, Nat.mul_assoc, ← Nat.pow_add, ← Nat.pow_add,
    show 29 + (e + 896 - 1) = e - 1 + 925 by omega]

/-- The number is kept. -/
theorem widen_value {k : Nat} (hk : k < 2 ^ 32) : value64 (widen k) = (value32 k).scale (2 ^ 925) := by
  obtain ⟨E, F, e, hE, hF, h⟩ := widen_parts hk
  have hf : k % 2 ^ 23 < 2 ^ 23 := Nat.mod_lt _ (by decide)
  obtain ⟨p1, p2, p3, _⟩ := parts64 (s := k / 2 ^ 31) (by omega) hE hF
  unfold value64 value32
  rw [e, p1, p2, p3]
  rcases h with ⟨h1, rfl, rfl⟩ | ⟨h1, h2, rfl, rfl⟩ | ⟨h1, h2, rfl, rfl⟩ | ⟨h1, h2, rfl, rfl⟩
  · rw [if_pos rfl, if_pos h1]
    by_cases h0 : k % 2 ^ 23 = 0
    · rw [if_pos h0, if_pos rfl, if_pos h0]; rfl
    · rw [if_neg h0, if_neg h0, if_neg (by omega)]; rfl
  · rw [if_neg (by decide), if_pos rfl, if_neg (by omega), if_pos h1, h2]
    simp [Value.scale]
  · have l := (log2_facts h2 hf).1
    rw [if_neg (by omega), if_neg (by omega), if_neg (by omega), if_pos h1, low_value h2 hf]
    rfl
  · rw [if_neg (by omega), if_neg (by omega), if_neg h1, if_neg h2, normal_value _ _ h2]
    rfl

/-- Bits with the same value, NaN apart. -/
theorem value32_inj {a b : Nat} (ha : a < 2 ^ 32) (hb : b < 2 ^ 32) (hn : value32 a ≠ .nan) (h : value32 a = value32 b) : a = b := by
  have fa : a % 2 ^ 23 < 2 ^ 23 := Nat.mod_lt _ (by decide)
  have fb : b % 2 ^ 23 < 2 ^ 23 := Nat.mod_lt _ (by decide)
  have sgn : ∀ x y : Nat, x < 2 ^ 32 → y < 2 ^ 32 → (x / 2 ^ 31 == 1) = (y / 2 ^ 31 == 1) → x / 2 ^ 31 = y / 2 ^ 31 := by
    intro x y hx hy e
    have e : (x / 2 ^ 31 = 1) ↔ (y / 2 ^ 31 = 1) := by
      rw [← beq_iff_eq, ← beq_iff_eq (b := 1) (a := y / 2 ^ 31), e]
    omega
  have key : ∀ x y : Nat, x % 2 ^ 23 < 2 ^ 23 → y / 2 ^ 23 % 256 < x / 2 ^ 23 % 256 →
      (if y / 2 ^ 23 % 256 = 0 then y % 2 ^ 23 else (2 ^ 23 + y % 2 ^ 23) * 2 ^ (y / 2 ^ 23 % 256 - 1)) <
      (if x / 2 ^ 23 % 256 = 0 then x % 2 ^ 23 else (2 ^ 23 + x % 2 ^ 23) * 2 ^ (x / 2 ^ 23 % 256 - 1)) := by
    intro x y hx hlt
    have fy : y % 2 ^ 23 < 2 ^ 23 := Nat.mod_lt _ (by decide)
    generalize x % 2 ^ 23 = fx at *
    generalize y % 2 ^ 23 = fy' at *
    generalize x / 2 ^ 23 % 256 = ex at *
    generalize y / 2 ^ 23 % 256 = ey at *
    rw [if_neg (by omega : ¬ ex = 0)]
    have p := Nat.two_pow_pos (ex - 1)
    split
    · calc fy' < 2 ^ 23 := fy
        _ ≤ 2 ^ 23 * 2 ^ (ex - 1) := Nat.le_mul_of_pos_right _ p
        _ ≤ _ := Nat.mul_le_mul_right _ (by omega)
    · calc (2 ^ 23 + fy') * 2 ^ (ey - 1) < 2 ^ 24 * 2 ^ (ey - 1) := Nat.mul_lt_mul_of_pos_right (by omega) (Nat.two_pow_pos _)
        _ = 2 ^ 23 * 2 ^ ey := by rw [← Nat.pow_add, ← Nat.pow_add]; congr 1; omega
        _ ≤ 2 ^ 23 * 2 ^ (ex - 1) := Nat.mul_le_mul_left _ (Nat.pow_le_pow_right (by decide) (by omega))
        _ ≤ _ := Nat.mul_le_mul_right _ (by omega)
  unfold value32 at h hn
  by_cases a1 : a / 2 ^ 23 % 256 = 255
  · rw [if_pos a1] at h hn
    by_cases a2 : a % 2 ^ 23 = 0
    · rw [if_pos a2] at h
      by_cases b1 : b / 2 ^ 23 % 256 = 255
      · rw [if_pos b1] at h
        by_cases b2 : b % 2 ^ 23 = 0
        · rw [if_pos b2] at h
          injection h with h
          have := sgn a b ha hb h
          omega
        · rw [if_neg b2] at h
          cases h
      · rw [if_neg b1] at h
        cases h
    · rw [if_neg a2] at hn
      exact absurd rfl hn
  · rw [if_neg a1] at h
    by_cases b1 : b / 2 ^ 23 % 256 = 255
    · rw [if_pos b1] at h
      by_cases b2 : b % 2 ^ 23 = 0
      · rw [if_pos b2] at h; cases h
      · rw [if_neg b2] at h; cases h
    · rw [if_neg b1] at h
      injection h with hs hu
      have s := sgn a b ha hb hs
      have e : a / 2 ^ 23 % 256 = b / 2 ^ 23 % 256 := by
        rcases Nat.lt_trichotomy (a / 2 ^ 23 % 256) (b / 2 ^ 23 % 256) with l | l | l
        · have := key b a fb l
          omega
        · exact l
        · have := key a b fa l
          omega
      have f : a % 2 ^ 23 = b % 2 ^ 23 := by
        rw [e] at hu
        split at hu
        · exact hu
        · have := Nat.eq_of_mul_eq_mul_right (Nat.two_pow_pos _) hu
          omega
      omega

theorem scale_inj {v w : Value} {n : Nat} (hn : 0 < n) (h : v.scale n = w.scale n) : v = w := by
  cases v <;> cases w <;> simp only [Value.scale, Value.num.injEq, reduceCtorEq] at h ⊢
  · exact h
  · exact ⟨h.1, Nat.eq_of_mul_eq_mul_right hn h.2⟩

theorem scale_nan {v : Value} {n : Nat} : v.scale n = .nan ↔ v = .nan := by
  cases v <;> simp [Value.scale]

theorem nan_iff (k : Nat) : value32 k = .nan ↔ k / 2 ^ 23 % 256 = 255 ∧ k % 2 ^ 23 ≠ 0 := by
  unfold value32
  split
  · rename_i h
    split
    · rename_i h'; simp [h, h']
    · rename_i h'; simp [h, h']
  · rename_i h
    simp [h]

/-- Which NaNs become the same. -/
theorem widen_nan {a b : Nat} (na : value32 a = .nan) (nb : value32 b = .nan) :
    widen a = widen b ↔ a / 2 ^ 31 = b / 2 ^ 31 ∧ a % 2 ^ 22 = b % 2 ^ 22 := by
  obtain ⟨a1, a2⟩ := (nan_iff a).1 na
  obtain ⟨b1, b2⟩ := (nan_iff b).1 nb
  unfold widen
  dsimp only
  rw [if_pos a1, if_pos b1, if_neg a2, if_neg b2]
  omega

theorem widen_same {a b : Nat} (ha : a < 2 ^ 32) (hb : b < 2 ^ 32) :
    widen a = widen b ↔ a = b ∨ (value32 a = .nan ∧ value32 b = .nan ∧ a / 2 ^ 31 = b / 2 ^ 31 ∧ a % 2 ^ 22 = b % 2 ^ 22) := by
  constructor
  · intro h
    have hv := congrArg value64 h
    rw [widen_value ha, widen_value hb] at hv
    have hv := scale_inj (Nat.two_pow_pos _) hv
    by_cases n : value32 a = .nan
    · have n' : value32 b = .nan := hv ▸ n
      exact .inr ⟨n, n', (widen_nan n n').1 h⟩
    · exact .inl (value32_inj ha hb n hv)
  · rintro (rfl | ⟨n, n', h⟩)
    · rfl
    · exact (widen_nan n n').2 h

end Gofer.LimitHashMap
