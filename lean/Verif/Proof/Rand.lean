import Verif.Model.Rand
import Verif.Proof.Num
import Verif.Spec.Num
import Mathlib.Data.Nat.Count
import Mathlib.Data.Finset.Card
import Mathlib.Data.Finset.Image
import Mathlib.Order.Interval.Finset.Nat

namespace Gofer.Rand

/-! ### Counting -/

theorem count_congr' {p q : Nat → Prop} [DecidablePred p] [DecidablePred q] {n : Nat} (h : ∀ k < n, (p k ↔ q k)) :
    Nat.count p n = Nat.count q n := by
  induction n with
  | zero => simp
  | succ n ih =>
    rw [Nat.count_succ, Nat.count_succ, ih fun k hk => h k (by omega)]
    have := h n (by omega)
    simp [this]

/-- Among the numbers below `n * q` exactly `q` leave remainder `r`. -/
theorem count_mod (n r : Nat) (hr : r < n) (q : Nat) : Nat.count (fun v => v % n = r) (n * q) = q := by
  induction q with
  | zero => simp
  | succ q ih =>
    rw [Nat.mul_succ, Nat.count_add, ih]
    congr 1
    have : Nat.count (fun k => (n * q + k) % n = r) n = Nat.count (fun k => k = r) n := by
      refine count_congr' fun k hk => ?_
      rw [Nat.mul_add_mod, Nat.mod_eq_of_lt hk]
    rw [this]
    have key : ∀ m, Nat.count (fun k => k = r) m = if r < m then 1 else 0 := by
      intro m
      induction m with
      | zero => simp
      | succ m ih =>
        rw [Nat.count_succ, ih]
        by_cases h1 : r < m
        · rw [if_pos h1, if_neg (by omega), if_pos (by omega)]
        · by_cases h2 : m = r
          · rw [if_neg h1, if_pos h2, if_pos (by omega)]
          · rw [if_neg h1, if_neg h2, if_neg (by omega)]
    rw [key, if_pos hr]

/-- A condition on the quotient by `b`. -/
theorem count_div (p : Nat → Prop) [DecidablePred p] (b : Nat) (hb : 0 < b) (a : Nat) :
    Nat.count (fun v => p (v / b)) (a * b) = Nat.count p a * b := by
  induction a with
  | zero => simp
  | succ a ih =>
    rw [Nat.succ_mul, Nat.count_add, ih, Nat.count_succ]
    have : Nat.count (fun k => p ((a * b + k) / b)) b = Nat.count (fun _ => p a) b := by
      refine count_congr' fun k hk => ?_
      rw [Nat.add_comm, Nat.add_mul_div_right _ _ hb, Nat.div_eq_of_lt hk, Nat.zero_add]
    rw [this]
    by_cases h : p a
    · simp [h, Nat.add_mul]
    · simp [h]

/-! ### math/rand -/

theorem pow_of_and {n : Nat} (h0 : 0 < n) (h : n &&& (n - 1) = 0) : ∃ k, n = 2 ^ k := by
  induction n using Nat.strongRecOn with
  | ind n ih =>
    have h2 := congrArg (· / 2) h
    simp only [Nat.and_div_two, Nat.zero_div] at h2
    rcases Nat.mod_two_eq_zero_or_one n with hm | hm
    · rw [show (n - 1) / 2 = n / 2 - 1 by omega] at h2
      obtain ⟨k, hk⟩ := ih (n / 2) (by omega) (by omega) h2
      exact ⟨k + 1, by rw [Nat.pow_succ]; omega⟩
    · rw [show (n - 1) / 2 = n / 2 by omega, Nat.and_self] at h2
      exact ⟨0, by omega⟩

/-- A draw is accepted if it is below the largest multiple of `n`. -/
def Acc (m n v : Nat) : Prop := v < n * (m / n)

instance (m n v : Nat) : Decidable (Acc m n v) := inferInstanceAs (Decidable (_ < _))

theorem acc_iff {m n v : Nat} (hn : 0 < n) (hnm : n ≤ m) : Acc m n v ↔ v ≤ m - 1 - m % n := by
  have h1 := Nat.div_add_mod m n
  have h2 : 0 < m / n := Nat.div_pos hnm hn
  have h3 : 0 < n * (m / n) := Nat.mul_pos hn h2
  unfold Acc
  omega

theorem reject_some {max : Nat} {f : Nat → Nat} {fuel v : Nat} :
    reject max f fuel = some v ↔ ∃ k, k < fuel ∧ f k = v ∧ v ≤ max ∧ ∀ j < k, max < f j := by
  induction fuel generalizing f with
  | zero => simp [reject]
  | succ fuel ih =>
    simp only [reject]
    split
    · rename_i h
      constructor
      · intro hv
        cases hv
        exact ⟨0, by omega, rfl, h, by omega⟩
      · rintro ⟨k, _, hk, hm, hj⟩
        cases k with
        | zero => rw [hk]
        | succ k => have := hj 0 (by omega); omega
    · rename_i h
      rw [ih]
      constructor
      · rintro ⟨k, h1, h2, h3, h4⟩
        refine ⟨k + 1, by omega, h2, h3, fun j hj => ?_⟩
        cases j with
        | zero => omega
        | succ j => exact h4 j (by omega)
      · rintro ⟨k, h1, h2, h3, h4⟩
        cases k with
        | zero => omega
        | succ k => exact ⟨k, by omega, h2, h3, fun j hj => h4 (j + 1) (by omega)⟩

/-- The result is the remainder of the first accepted draw. -/
theorem boundedN_ok {m n : Nat} {f : Nat → Nat} {fuel r : Nat} (hn : 0 < n) (hnm : n ≤ m) {e : Nat} (he : m = 2 ^ e) (hf : ∀ k, f k < m) :
    boundedN m f n fuel = .ok r ↔ ∃ k, k < fuel ∧ f k % n = r ∧ Acc m n (f k) ∧ ∀ j < k, ¬ Acc m n (f j) := by
  unfold boundedN
  split
  · rename_i h
    obtain ⟨a, ha⟩ := pow_of_and hn h
    have hall : ∀ k, Acc m n (f k) := by
      intro k
      have hae : a ≤ e := by
        rw [ha, he] at hnm
        exact (Nat.pow_le_pow_iff_right (by omega)).1 hnm
      have hd : m % n = 0 := by
        rw [ha, he]
        exact Nat.mod_eq_zero_of_dvd (Nat.pow_dvd_pow 2 hae)
      have := Nat.div_add_mod m n
      have := hf k
      unfold Acc
      omega
    have hmod : ∀ v, v &&& (n - 1) = v % n := by intro v; rw [ha, Nat.and_two_pow_sub_one_eq_mod]
    cases fuel with
    | zero => simp
    | succ fuel =>
      simp only [Res.ok.injEq, hmod]
      constructor
      · intro h; exact ⟨0, by omega, h, hall 0, by omega⟩
      · rintro ⟨k, _, hk, _, hj⟩
        cases k with
        | zero => exact hk
        | succ k => exact absurd (hall 0) (hj 0 (by omega))
  · constructor
    · intro h
      split at h
      · cases h
      · rename_i v hv
        simp only [Res.ok.injEq] at h
        obtain ⟨k, h1, rfl, h3, h4⟩ := reject_some.1 hv
        exact ⟨k, h1, h, (acc_iff hn hnm).2 h3, fun j hj => by rw [acc_iff hn hnm]; have := h4 j hj; omega⟩
    · rintro ⟨k, h1, h2, h3, h4⟩
      have : reject (m - 1 - m % n) f fuel = some (f k) :=
        reject_some.2 ⟨k, h1, rfl, (acc_iff hn hnm).1 h3, fun j hj => by have := h4 j hj; rw [acc_iff hn hnm] at this; omega⟩
      rw [this]
      simp [h2]

theorem boundedN_not_panic {m n : Nat} {f : Nat → Nat} {fuel : Nat} : boundedN m f n fuel ≠ .panic := by
  unfold boundedN
  split
  · split <;> simp
  · split <;> simp

/-- How many of the `m` possible draws give `r` at once. -/
theorem count_acc {m n r : Nat} (hr : r < n) : Nat.count (fun v => v % n = r ∧ Acc m n v) m = m / n := by
  have e1 : Nat.count (fun v => v % n = r ∧ Acc m n v) (n * (m / n)) = m / n := by
    have : Nat.count (fun v => v % n = r ∧ Acc m n v) (n * (m / n)) = Nat.count (fun v => v % n = r) (n * (m / n)) :=
      count_congr' fun k hk => ⟨fun h => h.1, fun h => ⟨h, hk⟩⟩
    rw [this, count_mod n r hr]
  have e2 : Nat.count (fun k => (n * (m / n) + k) % n = r ∧ Acc m n (n * (m / n) + k)) (m % n) = 0 := by
    rw [Nat.count_iff_forall_not]
    intro k _ h
    have := h.2
    unfold Acc at this
    omega
  have h3 := Nat.count_add (fun v => v % n = r ∧ Acc m n v) (n * (m / n)) (m % n)
  rw [Nat.div_add_mod, e1, e2] at h3
  exact h3

theorem normSeed_range (s : Int) : 1 ≤ normSeed s ∧ normSeed s ≤ 2 ^ 31 - 2 := by
  have h1 := Int.tmod_lt_of_pos s (b := 2 ^ 31 - 1) (by decide)
  have h2 : -(2 ^ 31 - 1) < s.tmod (2 ^ 31 - 1) := Int.lt_tmod_of_pos s (by decide)
  unfold normSeed
  simp only
  generalize s.tmod (2 ^ 31 - 1) = t at *
  norm_num at *
  split <;> split <;> omega

/-! ### crypto/rand -/

open Gofer.Spec.Num Gofer.Num

theorem setBytes_eq (bs : List UInt8) : setBytes bs = beValue bs := rfl

theorem lt_two_pow_bitLen (n : Nat) : n < 2 ^ bitLen n := by
  unfold bitLen
  split
  · omega
  · exact Nat.lt_log2_self

theorem two_pow_le {n : Nat} (h : bitLen n ≠ 0) : 2 ^ (bitLen n - 1) ≤ n := by
  unfold bitLen at *
  split at h
  · omega
  · rename_i h0
    rw [if_neg h0, Nat.add_sub_cancel]
    exact Nat.log2_self_le h0

theorem maskByte (x : UInt8) (b : Nat) (hb : b ≤ 8) : (x &&& (2 ^ b - 1).toUInt8).toNat = x.toNat % 2 ^ b := by
  rw [UInt8.toNat_and]
  have : 2 ^ b ≤ 2 ^ 8 := Nat.pow_le_pow_right (by omega) hb
  have h1 : (2 ^ b - 1).toUInt8.toNat = 2 ^ b - 1 := by
    have h2 : (2 ^ b - 1).toUInt8.toNat = (2 ^ b - 1) % 256 := rfl
    rw [h2, Nat.mod_eq_of_lt]
    have : 0 < 2 ^ b := Nat.two_pow_pos b
    omega
  rw [h1, Nat.and_two_pow_sub_one_eq_mod]

/-- Clearing the surplus bits of the first byte is reducing modulo the power of two. -/
theorem mask_value (bs : List UInt8) (l : Nat) (hl : l ≠ 0) (h : bs.length = (l + 7) / 8) :
    setBytes (mask (if l % 8 = 0 then 8 else l % 8) bs) = beValue bs % 2 ^ l := by
  cases bs with
  | nil => simp at h; omega
  | cons x xs =>
    simp only [List.length_cons] at h
    have hb : (if l % 8 = 0 then 8 else l % 8) ≤ 8 := by split <;> omega
    have hl' : l = 8 * xs.length + (if l % 8 = 0 then 8 else l % 8) := by split <;> omega
    generalize (if l % 8 = 0 then 8 else l % 8) = b at *
    simp only [mask]
    rw [setBytes_eq, beValue_cons, beValue_cons, maskByte x b hb]
    have hlt := beValue_lt xs
    have hp : 2 ^ l = 256 ^ xs.length * 2 ^ b := by rw [hl', Nat.pow_add, Nat.pow_mul]
    rw [hp, Nat.mod_mul, Nat.add_comm, Nat.add_comm (x.toNat * _)]
    have h1 : (beValue xs + x.toNat * 256 ^ xs.length) % 256 ^ xs.length = beValue xs := by
      rw [Nat.add_mul_mod_self_right, Nat.mod_eq_of_lt hlt]
    have h2 : (beValue xs + x.toNat * 256 ^ xs.length) / 256 ^ xs.length = x.toNat := by
      rw [Nat.add_mul_div_right _ _ (by omega), Nat.div_eq_of_lt hlt, Nat.zero_add]
    rw [h1, h2, Nat.mul_comm]

theorem intLoop_ok {max b : Nat} {read : Nat → Option (List UInt8)} {fuel : Nat} {o : Option Nat} :
    intLoop max b read fuel = .ok o ↔ ∃ k, k < fuel ∧
      (∀ j < k, ∃ bs, read j = some bs ∧ max ≤ setBytes (mask b bs)) ∧
      ((o = none ∧ read k = none) ∨ ∃ bs, read k = some bs ∧ setBytes (mask b bs) < max ∧ o = some (setBytes (mask b bs))) := by
  induction fuel generalizing read with
  | zero => simp [intLoop]
  | succ fuel ih =>
    simp only [intLoop]
    cases h0 : read 0 with
    | none =>
      simp only [Res.ok.injEq]
      constructor
      · rintro rfl; exact ⟨0, by omega, by omega, .inl ⟨rfl, h0⟩⟩
      · rintro ⟨k, _, hj, hk⟩
        cases k with
        | zero =>
          rcases hk with ⟨h, _⟩ | ⟨bs, h, _⟩
          · exact h.symm
          · rw [h0] at h; cases h
        | succ k =>
          obtain ⟨bs, h, _⟩ := hj 0 (by omega)
          rw [h0] at h; cases h
    | some bs0 =>
      simp only
      split
      · rename_i hlt
        simp only [Res.ok.injEq]
        constructor
        · rintro rfl; exact ⟨0, by omega, by omega, .inr ⟨bs0, h0, hlt, rfl⟩⟩
        · rintro ⟨k, _, hj, hk⟩
          cases k with
          | zero =>
            rcases hk with ⟨_, h⟩ | ⟨bs, h, _, h3⟩
            · rw [h0] at h; cases h
            · rw [h0] at h; cases h; exact h3.symm
          | succ k =>
            obtain ⟨bs, h, h2⟩ := hj 0 (by omega)
            rw [h0] at h; cases h
            omega
      · rename_i hge
        rw [ih]
        constructor
        · rintro ⟨k, h1, h2, h3⟩
          refine ⟨k + 1, by omega, fun j hj => ?_, h3⟩
          cases j with
          | zero => exact ⟨bs0, h0, by omega⟩
          | succ j => exact h2 j (by omega)
        · rintro ⟨k, h1, h2, h3⟩
          cases k with
          | zero =>
            rcases h3 with ⟨_, h⟩ | ⟨bs, h, h4, _⟩
            · rw [h0] at h; cases h
            · rw [h0] at h; cases h; exact absurd h4 hge
          | succ k => exact ⟨k, by omega, fun j hj => h2 (j + 1) (by omega), h3⟩

theorem intLoop_not_panic {max b : Nat} {read : Nat → Option (List UInt8)} {fuel : Nat} : intLoop max b read fuel ≠ .panic := by
  induction fuel generalizing read with
  | zero => simp [intLoop]
  | succ fuel ih =>
    simp only [intLoop]
    split
    · simp
    · split
      · simp
      · exact ih

end Gofer.Rand
