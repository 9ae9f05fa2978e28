import Verif.Model.BloomRate
import Verif.Proof.Bloom
import Mathlib.Algebra.Order.Chebyshev
import Mathlib.Algebra.BigOperators.Pi
import Mathlib.Algebra.BigOperators.Ring.Finset
import Mathlib.Analysis.SpecialFunctions.Log.Deriv
import Mathlib.Tactic.FieldSimp
import Mathlib.Tactic.Positivity
import Mathlib.Tactic.Linarith
/-! # Counting tables of hash positions -/
namespace Gofer.Bloom
open Gofer.Spec.Bloom Finset

/-- The positions of the items of `R`. -/
def occ {n k M : Nat} (R : Finset (Fin n)) (T : Fin n → Fin k → Fin M) : Finset (Fin M) := (R ×ˢ (univ : Finset (Fin k))).image fun p => T p.1 p.2

theorem card_rows {k M : Nat} (S : Finset (Fin M)) : (univ.filter fun r : Fin k → Fin M => ∀ i, r i ∈ S).card = S.card ^ k := by
  have : (univ.filter fun r : Fin k → Fin M => ∀ i, r i ∈ S) = Fintype.piFinset fun _ => S := by
    ext r; simp [Fintype.mem_piFinset]
  rw [this, Fintype.card_piFinset]
  simp

theorem card_hits {n k M : Nat} (S : (Fin n → Fin k → Fin M) → Finset (Fin M)) :
    (univ.filter fun t : Table n k M => ∀ i, t.2 i ∈ S t.1).card = ∑ T, (S T).card ^ k := by
  rw [card_filter, Fintype.sum_prod_type]
  refine sum_congr rfl fun T _ => ?_
  rw [← card_rows, card_filter]

theorem occ_card {n k M : Nat} (R : Finset (Fin n)) (T : Fin n → Fin k → Fin M) : (occ R T).card ≤ R.card * k := by
  refine le_trans card_image_le ?_
  simp

theorem card_miss {n k M : Nat} (R : Finset (Fin n)) (b : Fin M) :
    (univ.filter fun T : Fin n → Fin k → Fin M => b ∉ occ R T).card = ((M - 1) ^ k) ^ R.card * (M ^ k) ^ (n - R.card) := by
  have h : (univ.filter fun T : Fin n → Fin k → Fin M => b ∉ occ R T) =
      Fintype.piFinset fun y => if y ∈ R then Fintype.piFinset fun _ => univ.erase b else univ := by
    ext T
    simp only [occ, mem_filter, mem_univ, true_and, mem_image, mem_product, and_true, Prod.exists, not_exists, not_and, Fintype.mem_piFinset]
    constructor
    · intro h y
      split
      · rename_i hy
        simp only [Fintype.mem_piFinset, mem_erase, mem_univ, and_true]
        intro j; exact h y j hy
      · simp
    · intro h y j hy
      have := h y
      rw [if_pos hy] at this
      simp only [Fintype.mem_piFinset, mem_erase, mem_univ, and_true] at this
      exact this j
  rw [h, Fintype.card_piFinset]
  have e : ∀ y : Fin n, (if y ∈ R then Fintype.piFinset fun _ : Fin k => (univ : Finset (Fin M)).erase b else univ).card = if y ∈ R then (M - 1) ^ k else M ^ k := by
    intro y
    split <;> simp [Fintype.card_piFinset, card_erase_of_mem]
  rw [prod_congr rfl fun y _ => e y, prod_ite, prod_const, prod_const]
  congr 2
  · congr 1; ext y; simp
  · rw [show (univ.filter fun y => y ∉ R) = univ \ R by ext y; simp, card_sdiff_of_subset (subset_univ R)]
    simp

theorem card_table {n k M : Nat} : Fintype.card (Fin n → Fin k → Fin M) = (M ^ k) ^ n := by simp

/-- The mean number of positions in use. -/
theorem sum_occ {n k M : Nat} (R : Finset (Fin n)) :
    ∑ T : Fin n → Fin k → Fin M, ((occ R T).card : ℝ) = M * ((M : ℝ) ^ k) ^ n - M * ((((M - 1 : Nat) : ℝ) ^ k) ^ R.card * ((M : ℝ) ^ k) ^ (n - R.card)) := by
  have h1 : ∀ T : Fin n → Fin k → Fin M, ((occ R T).card : ℝ) = ∑ b : Fin M, (1 - if b ∉ occ R T then (1 : ℝ) else 0) := by
    intro T
    have : (occ R T).card = ∑ b : Fin M, if b ∈ occ R T then 1 else 0 := by rw [← card_filter]; congr 1; ext; simp
    rw [this]
    push_cast
    refine sum_congr rfl fun b _ => ?_
    by_cases hb : b ∈ occ R T <;> simp [hb]
  simp_rw [h1]
  rw [sum_comm]
  have h2 : ∀ b : Fin M, ∑ T : Fin n → Fin k → Fin M, (1 - if b ∉ occ R T then (1 : ℝ) else 0) =
      ((M : ℝ) ^ k) ^ n - (((M - 1 : Nat) : ℝ) ^ k) ^ R.card * ((M : ℝ) ^ k) ^ (n - R.card) := by
    intro b
    rw [sum_sub_distrib]
    congr 1
    · simp
    · have := card_miss (k := k) R b
      rw [card_filter] at this
      have h := congrArg (Nat.cast : Nat → ℝ) this
      push_cast at h
      exact h
  rw [sum_congr rfl fun b _ => h2 b]
  simp

/-- The items remembered. -/
def remembered (n w : Nat) : Finset (Fin n) := univ.filter fun y => n - w ≤ y.val

theorem remembered_card {n w : Nat} (h : w ≤ n) : (remembered n w).card = w := by
  have : (remembered n w).card = ((range n).filter fun y => n - w ≤ y).card := by
    refine card_bij (fun y _ => y.val) ?_ ?_ ?_
    · intro y hy; simp [remembered] at hy ⊢; omega
    · intro a _ b _ hab; exact Fin.ext hab
    · intro y hy; simp at hy; exact ⟨⟨y, hy.1⟩, by simp [remembered]; omega, rfl⟩
  rw [this]
  have : ((range n).filter fun y => n - w ≤ y) = Finset.Ico (n - w) n := by ext y; simp; omega
  rw [this, Nat.card_Ico]; omega

theorem pos_hashOf {n k W : Nat} (hW : W * 64 < 2 ^ 64) (t : Table n k (W * 64)) (i : Fin k) (y : Nat) :
    pos (hashOf t) W i.val y = (if hy : y < n then (t.1 ⟨y, hy⟩ i).val else (t.2 i).val) := by
  have key : ∀ v : Fin (W * 64), v.val.toUInt64.toNat % (W * 64) = v.val := by
    intro v
    have := v.isLt
    rw [show v.val.toUInt64.toNat = v.val from by simp [Nat.toUInt64, UInt64.toNat_ofNat']; omega, Nat.mod_eq_of_lt this]
  unfold pos hashOf
  rw [dif_pos i.isLt]
  split
  · exact key _
  · exact key _

theorem adds_map (l : List Nat) : adds (l.map Op.add) = l := by
  induction l with
  | nil => rfl
  | cons a l ih => simp [adds, ih]

/-- When `Contains` is wrong. -/
theorem falsePositive_iff {k W E n : Nat} (hk : 0 < k) (hW : 0 < W) (hW' : W * 64 < 2 ^ 64) (hE : 0 < E) (t : Table n k (W * 64)) :
    falsePositive k W E n t = true ↔ ∀ i, t.2 i ∈ occ (remembered n (window E n)) t.1 := by
  have h := inv_final (hashOf t) hk hW hE ((List.range n).map Op.add) (inv_new (hashOf t) hE)
  rw [List.nil_append] at h
  have hc := (contains_of_inv hW hE h n).2
  rw [adds_map, List.length_range] at hc
  unfold falsePositive
  rw [hc]
  have hw := (window_bounds E hE n).2.2
  have hmem : ∀ y, y ∈ last (window E n) (List.range n) ↔ n - window E n ≤ y ∧ y < n := by
    intro y
    unfold last
    rw [List.length_range, List.mem_iff_getElem]
    constructor
    · rintro ⟨i, hi, rfl⟩
      simp only [List.length_drop, List.length_range] at hi
      simp
      omega
    · rintro ⟨h1, h2⟩
      exact ⟨y - (n - window E n), by simp; omega, by simp; omega⟩
  unfold Hit
  constructor
  · intro h i
    obtain ⟨y, hy, j, hj, he⟩ := h i.val i.isLt
    obtain ⟨hy1, hy2⟩ := (hmem y).1 hy
    have e1 := pos_hashOf hW' t ⟨j, hj⟩ y
    have e2 := pos_hashOf hW' t i n
    rw [dif_pos hy2] at e1
    rw [dif_neg (Nat.lt_irrefl n)] at e2
    simp only at e1
    rw [e1, e2] at he
    simp only [occ, mem_image, mem_product, mem_univ, and_true, Prod.exists]
    exact ⟨⟨y, hy2⟩, ⟨j, hj⟩, by simp only [remembered, mem_filter, mem_univ, true_and]; exact hy1, Fin.ext he⟩
  · intro h i hi
    have := h ⟨i, hi⟩
    simp only [occ, mem_image, mem_product, mem_univ, and_true, Prod.exists] at this
    obtain ⟨y, j, hy, he⟩ := this
    refine ⟨y.val, (hmem _).2 ⟨by simpa [remembered] using hy, y.isLt⟩, j.val, j.isLt, ?_⟩
    have e1 := pos_hashOf hW' t j y.val
    have e2 := pos_hashOf hW' t ⟨i, hi⟩ n
    rw [dif_pos y.isLt] at e1
    rw [dif_neg (Nat.lt_irrefl n)] at e2
    rw [e1]
    simp only at e2
    rw [e2, ← he]

theorem rate_eq {k W E n : Nat} (hk : 0 < k) (hW : 0 < W) (hW' : W * 64 < 2 ^ 64) (hE : 0 < E) :
    rate k W E n = (∑ T : Fin n → Fin k → Fin (W * 64), ((occ (remembered n (window E n)) T).card : ℝ) ^ k) / ((((W * 64 : Nat) : ℝ) ^ k) ^ n * ((W * 64 : Nat) : ℝ) ^ k) := by
  unfold rate
  have : (univ.filter fun t : Table n k (W * 64) => falsePositive k W E n t = true) =
      univ.filter fun t : Table n k (W * 64) => ∀ i, t.2 i ∈ occ (remembered n (window E n)) t.1 := by
    ext t; simp only [mem_filter, mem_univ, true_and]; exact falsePositive_iff hk hW hW' hE t
  rw [this, card_hits]
  congr 1
  · push_cast; rfl
  · simp

/-- No more than if all positions were different. -/
theorem rate_le {k W E n : Nat} (hk : 0 < k) (hW : 0 < W) (hW' : W * 64 < 2 ^ 64) (hE : 0 < E) :
    rate k W E n ≤ ((window E n * k : Nat) / ((W * 64 : Nat) : ℝ)) ^ k := by
  have hM : (0 : ℝ) < ((W * 64 : Nat) : ℝ) := by exact_mod_cast (by omega : 0 < W * 64)
  rw [rate_eq hk hW hW' hE, div_pow, div_le_div_iff₀ (by positivity) (by positivity)]
  have h1 : ∀ T : Fin n → Fin k → Fin (W * 64), ((occ (remembered n (window E n)) T).card : ℝ) ^ k ≤ ((window E n * k : Nat) : ℝ) ^ k := by
    intro T
    have := occ_card (remembered n (window E n)) T
    rw [remembered_card (window_bounds E hE n).2.2] at this
    exact pow_le_pow_left₀ (by positivity) (by exact_mod_cast this) k
  have h2 := sum_le_sum fun T (_ : T ∈ (univ : Finset (Fin n → Fin k → Fin (W * 64)))) => h1 T
  rw [sum_const, nsmul_eq_mul, card_univ, card_table] at h2
  have : (((((W * 64) ^ k) ^ n : Nat)) : ℝ) = ((((W * 64 : Nat) : ℝ)) ^ k) ^ n := by push_cast; rfl
  rw [this] at h2
  calc _ ≤ (((((W * 64 : Nat) : ℝ)) ^ k) ^ n * ((window E n * k : Nat) : ℝ) ^ k) * ((W * 64 : Nat) : ℝ) ^ k := by gcongr
    _ = _ := by ring

/-- No less than if the number of positions in use were always the mean. -/
theorem le_rate {k W E n : Nat} (hk : 0 < k) (hW : 0 < W) (hW' : W * 64 < 2 ^ 64) (hE : 0 < E) :
    (1 - ((((W * 64 - 1 : Nat) : ℝ)) / ((W * 64 : Nat) : ℝ)) ^ (k * window E n)) ^ k ≤ rate k W E n := by
  have hM : (0 : ℝ) < ((W * 64 : Nat) : ℝ) := by exact_mod_cast (by omega : 0 < W * 64)
  obtain ⟨k', rfl⟩ : ∃ k', k = k' + 1 := ⟨k - 1, by omega⟩
  have hw := (window_bounds E hE n).2.2
  rw [rate_eq hk hW hW' hE]
  have hj := pow_sum_div_card_le_sum_pow (s := (univ : Finset (Fin n → Fin (k' + 1) → Fin (W * 64)))) (f := fun T => ((occ (remembered n (window E n)) T).card : ℝ))
    (fun _ _ => by positivity) k'
  rw [sum_occ, remembered_card hw, card_univ, card_table] at hj
  have hc : (((((W * 64) ^ (k' + 1)) ^ n : Nat)) : ℝ) = ((((W * 64 : Nat) : ℝ)) ^ (k' + 1)) ^ n := by push_cast; rfl
  rw [hc] at hj
  refine le_trans (le_of_eq ?_) (div_le_div_of_nonneg_right hj (by positivity))
  generalize hA : ((((W * 64 : Nat) : ℝ)) ^ (k' + 1)) = A at *
  have hApos : 0 < A := by rw [← hA]; positivity
  generalize ((W * 64 : Nat) : ℝ) = M at *
  generalize ((W * 64 - 1 : Nat) : ℝ) = L at *
  generalize window E n = w at *
  have e1 : A ^ n = A ^ w * A ^ (n - w) := by rw [← pow_add]; congr 1; omega
  have e2 : M * A ^ n - M * ((L ^ (k' + 1)) ^ w * A ^ (n - w)) = (M * A ^ n) * (1 - (L / M) ^ ((k' + 1) * w)) := by
    rw [pow_mul, div_pow, hA, div_pow, e1]
    have : A ^ w ≠ 0 := by positivity
    field_simp
  rw [e2, mul_pow, mul_pow, hA]
  have hAn : (A ^ n) ≠ 0 := by positivity
  rw [pow_succ (A ^ n) k']
  field_simp

end Gofer.Bloom
