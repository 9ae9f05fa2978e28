import Verif.Spec.Crc8
import Verif.Model.Crc8
import Mathlib.Tactic.Ring
import Mathlib.Tactic.LinearCombination
import Mathlib.Algebra.CharP.Two
import Mathlib.RingTheory.Coprime.Lemmas
import Mathlib.Tactic.ComputeDegree

namespace Gofer.Crc8
open Gofer.Spec.Crc8 Polynomial

/-- A bit as an element of the polynomial ring. -/
noncomputable def pb (b : Bool) : (ZMod 2)[X] := if b then 1 else 0

theorem two_eq : (2 : (ZMod 2)[X]) = 0 := CharTwo.two_eq_zero

theorem pb_xor (a b : Bool) : pb (a ^^ b) = pb a + pb b := by
  have h : (1 : (ZMod 2)[X]) + 1 = 0 := by rw [one_add_one_eq_two, two_eq]
  cases a <;> cases b <;> simp [pb, h]

theorem poly_foldl (bits : List Bool) (a : (ZMod 2)[X]) :
    bits.foldl (fun a b => a * X + (if b then 1 else 0)) a = a * X ^ bits.length + poly bits := by
  induction bits generalizing a with
  | nil => simp [poly]
  | cons b bits ih =>
    simp only [poly, List.foldl_cons, List.length_cons] at *
    rw [ih, ih (0 * X + _)]
    ring

theorem poly_nil : poly [] = 0 := rfl

theorem poly_cons (b : Bool) (bits : List Bool) : poly (b :: bits) = pb b * X ^ bits.length + poly bits := by
  simp only [poly, List.foldl_cons]
  rw [poly_foldl]; simp [poly, pb]

theorem poly_append (a b : List Bool) : poly (a ++ b) = poly a * X ^ b.length + poly b := by
  simp only [poly, List.foldl_append]
  rw [poly_foldl]; simp [poly]

theorem poly_xor (a b : List Bool) (h : a.length = b.length) :
    poly (List.zipWith xor a b) = poly a + poly b := by
  induction a generalizing b with
  | nil => cases b <;> simp_all [poly]
  | cons x xs ih =>
    cases b with
    | nil => simp at h
    | cons y ys =>
      simp only [List.length_cons, Nat.add_right_cancel_iff] at h
      rw [List.zipWith_cons_cons, poly_cons, poly_cons, poly_cons, ih ys h, pb_xor]
      simp only [List.length_zipWith, h, Nat.min_self]
      ring

theorem poly_degree_lt (bits : List Bool) : (poly bits).degree < bits.length := by
  induction bits with
  | nil => simp [poly]
  | cons b bits ih =>
    rw [poly_cons]
    refine lt_of_le_of_lt (degree_add_le _ _) (max_lt ?_ ?_)
    · cases b
      · simp [pb]
      · simp only [pb, if_true, one_mul, degree_X_pow, List.length_cons]
        exact_mod_cast Nat.lt_succ_self _
    · refine lt_trans ih ?_
      rw [List.length_cons]
      exact_mod_cast Nat.lt_succ_self _

theorem poly_eq_zero_iff (bits : List Bool) : poly bits = 0 ↔ ∀ b ∈ bits, b = false := by
  induction bits with
  | nil => simp [poly]
  | cons b bits ih =>
    rw [poly_cons]
    cases b with
    | false => simp [pb, ih]
    | true =>
      simp only [pb, if_true, one_mul, List.mem_cons, forall_eq_or_imp]
      constructor
      · intro h
        exfalso
        have h1 : (X ^ bits.length : (ZMod 2)[X]) = - poly bits := by
          linear_combination h
        have h2 := poly_degree_lt bits
        rw [← degree_neg, ← h1, degree_X_pow] at h2
        exact lt_irrefl _ h2
      · intro h; exact absurd h.1 (by simp)

theorem G_natDegree : G.natDegree = 8 := by
  unfold G; compute_degree!

theorem G_monic : G.Monic := by
  unfold G; monicity!

theorem G_degree : G.degree = 8 := by
  rw [degree_eq_natDegree G_monic.ne_zero, G_natDegree]; rfl

theorem G_coprime_X : IsCoprime G X := by
  refine ⟨1, -(X ^ 7 + X + 1), ?_⟩
  unfold G; ring

theorem bitsOf_length (b : UInt8) : (bitsOf b).length = 8 := by simp [bitsOf]

theorem bitsOf_zero : bitsOf 0 = List.replicate 8 false := by decide +kernel

theorem bitsOf_xor (a b : UInt8) : bitsOf (a ^^^ b) = List.zipWith xor (bitsOf a) (bitsOf b) := by
  apply List.ext_getElem
  · simp [bitsOf]
  · intro i h1 h2
    simp [bitsOf, Nat.testBit_xor]

theorem forall_byte {P : UInt8 → Prop} (h : ∀ n < 256, P (UInt8.ofNat n)) (b : UInt8) : P b := by
  have := h b.toNat b.toNat_lt
  simpa using this

theorem bitsOf_inj : ∀ a b : UInt8, bitsOf a = bitsOf b → a = b := by
  intro a b h
  apply UInt8.toNat_inj.1
  apply Nat.eq_of_testBit_eq
  intro i
  by_cases hi : i < 8
  · have := congrArg (fun l => l[7 - i]?) h
    simp only [bitsOf, List.getElem?_map, List.getElem?_range (show 7 - i < 8 by omega)] at this
    simpa [show 7 - (7 - i) = i by omega] using this
  · have ha := a.toNat_lt
    have hb := b.toNat_lt
    have : 2 ^ 8 ≤ 2 ^ i := Nat.pow_le_pow_right (by omega) (by omega)
    rw [Nat.testBit_lt_two_pow (by omega), Nat.testBit_lt_two_pow (by omega)]

/-- Polynomial of a byte. -/
noncomputable def pB (b : UInt8) : (ZMod 2)[X] := poly (bitsOf b)

theorem pB_xor (a b : UInt8) : pB (a ^^^ b) = pB a + pB b := by
  rw [pB, bitsOf_xor, poly_xor _ _ (by simp [bitsOf])]; rfl

theorem pB_degree (b : UInt8) : (pB b).degree < G.degree := by
  have := poly_degree_lt (bitsOf b)
  rw [bitsOf_length] at this
  rw [G_degree]; exact_mod_cast this

theorem pB_eq_zero {b : UInt8} (h : pB b = 0) : b = 0 := by
  apply bitsOf_inj
  rw [bitsOf_zero]
  have := (poly_eq_zero_iff _).1 h
  exact List.eq_replicate_iff.2 ⟨bitsOf_length b, this⟩

theorem pB_inj {a b : UInt8} (h : pB a = pB b) : a = b := by
  have h1 : pB (a ^^^ b) = 0 := by
    rw [pB_xor, h, ← two_mul, two_eq, zero_mul]
  have := pB_eq_zero h1
  exact UInt8.xor_eq_zero_iff.1 this

/-- One step of multiplication by `x`. -/
def mulX (r : UInt8) : UInt8 := (r <<< 1) ^^^ (if r.toNat.testBit 7 then 7 else 0)

theorem bitsOf_mulX : ∀ r : UInt8, bitsOf (mulX r) =
    [r.toNat.testBit 6, r.toNat.testBit 5, r.toNat.testBit 4, r.toNat.testBit 3, r.toNat.testBit 2,
     r.toNat.testBit 1 ^^ r.toNat.testBit 7, r.toNat.testBit 0 ^^ r.toNat.testBit 7, r.toNat.testBit 7] :=
  forall_byte (by decide +kernel)

theorem pB_mulX (r : UInt8) : pB (mulX r) = pB r * X + pb (r.toNat.testBit 7) * G := by
  unfold pB
  rw [bitsOf_mulX]
  have : bitsOf r = [r.toNat.testBit 7, r.toNat.testBit 6, r.toNat.testBit 5, r.toNat.testBit 4,
    r.toNat.testBit 3, r.toNat.testBit 2, r.toNat.testBit 1, r.toNat.testBit 0] := by
    simp [bitsOf, List.range_succ]
  rw [this]
  simp only [poly_cons, poly_nil, pb_xor, List.length_cons, List.length_nil, G]
  linear_combination (- pb (r.toNat.testBit 7) * X ^ 8) * two_eq

theorem dvd_mulX (r : UInt8) : G ∣ pB (mulX r) - pB r * X := by
  rw [pB_mulX]; exact ⟨pb (r.toNat.testBit 7), by ring⟩

theorem dvd_iterate (r : UInt8) (k : Nat) : G ∣ pB (mulX^[k] r) - pB r * X ^ k := by
  induction k with
  | zero => simp
  | succ k ih =>
    rw [Function.iterate_succ_apply']
    obtain ⟨a, ha⟩ := ih
    obtain ⟨b, hb⟩ := dvd_mulX (mulX^[k] r)
    exact ⟨b + a * X, by linear_combination hb + X * ha⟩

theorem tab_eq : ∀ x : UInt8, crc8Tab.getD x.toNat 0 = mulX^[8] x :=
  forall_byte (by decide +kernel)

theorem msgBits_append (a b : List UInt8) : msgBits (a ++ b) = msgBits a ++ msgBits b := by
  simp [msgBits]

theorem msgBits_length (m : List UInt8) : (msgBits m).length = 8 * m.length := by
  induction m with
  | nil => rfl
  | cons b m ih => simp only [msgBits, List.flatMap_cons, List.length_append, List.length_cons, bitsOf_length] at *; omega

/-- The table loop started at `r0` computes `(r0 * x^(8n) + M) * x^8` modulo `G` (up to the outer shift). -/
theorem crc_congr (m : List UInt8) :
    G ∣ pB (crc8 m) - poly (msgBits m) * X ^ 8 := by
  induction m using List.reverseRecOn with
  | nil => simp [crc8, pB, bitsOf_zero, msgBits, poly, List.replicate]
  | append_singleton m v ih =>
    obtain ⟨a, ha⟩ := ih
    have h1 : crc8 (m ++ [v]) = mulX^[8] (crc8 m ^^^ v) := by
      rw [← tab_eq]; simp [crc8]
    obtain ⟨b, hb⟩ := dvd_iterate (crc8 m ^^^ v) 8
    rw [h1, msgBits_append, poly_append]
    have h2 : poly (msgBits [v]) = pB v := by simp [msgBits, pB]
    rw [h2, msgBits_length]
    rw [pB_xor] at hb
    exact ⟨b + a * X ^ 8, by simp only [List.length_cons, List.length_nil]; linear_combination hb + X ^ 8 * ha⟩

theorem crc_eq_mod (m : List UInt8) : pB (crc8 m) = (poly (msgBits m) * X ^ 8) %ₘ G := by
  obtain ⟨a, ha⟩ := crc_congr m
  have := (div_modByMonic_unique (f := poly (msgBits m) * X ^ 8) (g := G) (-a) (pB (crc8 m)) G_monic
    ⟨by linear_combination ha, pB_degree _⟩).2
  exact this.symm

theorem msgBits_xor (a b : List UInt8) (h : a.length = b.length) :
    msgBits (List.zipWith (· ^^^ ·) a b) = List.zipWith xor (msgBits a) (msgBits b) := by
  induction a generalizing b with
  | nil => cases b <;> simp_all [msgBits]
  | cons x xs ih =>
    cases b with
    | nil => simp at h
    | cons y ys =>
      simp only [List.length_cons, Nat.add_right_cancel_iff] at h
      have := ih ys h
      simp only [msgBits, List.zipWith_cons_cons, List.flatMap_cons] at *
      rw [this, bitsOf_xor, List.zipWith_append (by simp [bitsOf_length])]

theorem crc_linear (a b : List UInt8) (h : a.length = b.length) :
    crc8 (List.zipWith (· ^^^ ·) a b) = crc8 a ^^^ crc8 b := by
  apply pB_inj
  rw [pB_xor, crc_eq_mod, crc_eq_mod, crc_eq_mod, msgBits_xor a b h, poly_xor _ _ (by simp [msgBits_length, h]),
    add_mul, add_modByMonic]

theorem crc_zero_iff (e : List UInt8) : crc8 e = 0 ↔ G ∣ poly (msgBits e) := by
  have h0 : pB 0 = 0 := by simp [pB, bitsOf_zero, poly, List.replicate]
  constructor
  · intro h
    have := crc_eq_mod e
    rw [h, h0, eq_comm, modByMonic_eq_zero_iff_dvd G_monic] at this
    exact (IsCoprime.pow_right (n := 8) G_coprime_X).dvd_of_dvd_mul_right this
  · intro h
    apply pB_eq_zero
    rw [crc_eq_mod, modByMonic_eq_zero_iff_dvd G_monic]
    exact h.mul_right _

theorem poly_replicate_false (n : Nat) : poly (List.replicate n false) = 0 :=
  (poly_eq_zero_iff _).2 (by simp)

/-- Powers of `x` below 127 are not 1 modulo `G`. -/
theorem pow_ne_one (d : Nat) (h0 : 0 < d) (h : d < 127) : ¬ G ∣ X ^ d + 1 := by
  intro hd
  have h1 := dvd_iterate 1 d
  have p1 : pB 1 = 1 := by
    have : bitsOf 1 = [false,false,false,false,false,false,false,true] := by decide +kernel
    simp [pB, this, poly]
  rw [p1, one_mul] at h1
  have h2 : G ∣ pB (mulX^[d] 1 ^^^ 1) := by
    rw [pB_xor, p1]
    obtain ⟨a, ha⟩ := h1
    obtain ⟨b, hb⟩ := hd
    exact ⟨a + b, by linear_combination ha + hb⟩
  have h3 : pB (mulX^[d] 1 ^^^ 1) = 0 := by
    by_contra hne
    exact G_monic.not_dvd_of_degree_lt hne (pB_degree _) h2
  have h4 := UInt8.xor_eq_zero_iff.1 (pB_eq_zero h3)
  have : ∀ d < 127, 0 < d → mulX^[d] 1 ≠ 1 := by decide +kernel
  exact this d h h0 h4

theorem eval_poly (bits : List Bool) : (poly bits).eval 1 = (bits.count true : ZMod 2) := by
  induction bits with
  | nil => simp [poly]
  | cons b bits ih =>
    rw [poly_cons, eval_add, ih]
    cases b <;> simp [pb, add_comm]

theorem G_eval : G.eval 1 = 0 := by
  simp [G]; decide

end Gofer.Crc8
