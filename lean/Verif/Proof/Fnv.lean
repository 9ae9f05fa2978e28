import Verif.Model.Fnv

namespace Gofer.Fnv

theorem mul_inj32 {a b : UInt32} (h : a * 16777619 = b * 16777619) : a = b := by
  have h2 := congrArg (fun z => z * 899433627) h
  simp only [UInt32.mul_assoc] at h2
  have e : (16777619 : UInt32) * 899433627 = 1 := by decide +kernel
  rwa [e, UInt32.mul_one, UInt32.mul_one] at h2

theorem mul_inj64 {a b : UInt64} (h : a * 1099511628211 = b * 1099511628211) : a = b := by
  have h2 := congrArg (fun z => z * 14886173955864302971) h
  simp only [UInt64.mul_assoc] at h2
  have e : (1099511628211 : UInt64) * 14886173955864302971 = 1 := by decide +kernel
  rwa [e, UInt64.mul_one, UInt64.mul_one] at h2

theorem step32_state {a b : UInt32} {x : UInt8} (h : step32 a x = step32 b x) : a = b :=
  (UInt32.xor_left_inj _).1 (mul_inj32 h)

theorem step64_state {a b : UInt64} {x : UInt8} (h : step64 a x = step64 b x) : a = b :=
  (UInt64.xor_left_inj _).1 (mul_inj64 h)

theorem fold32_state (s : List UInt8) {a b : UInt32} (h : s.foldl step32 a = s.foldl step32 b) : a = b := by
  induction s generalizing a b with
  | nil => exact h
  | cons x s ih => exact step32_state (ih h)

theorem fold64_state (s : List UInt8) {a b : UInt64} (h : s.foldl step64 a = s.foldl step64 b) : a = b := by
  induction s generalizing a b with
  | nil => exact h
  | cons x s ih => exact step64_state (ih h)

/-- Xor with a byte keeps the upper bits. -/
theorem xor_byte_high (n m b : Nat) (hb : b < 256) (h : n = m ^^^ b) : n / 256 = m / 256 := by
  subst h
  rw [show 256 = 2 ^ 8 from rfl, ← Nat.shiftRight_eq_div_pow, ← Nat.shiftRight_eq_div_pow, Nat.shiftRight_xor_distrib]
  rw [Nat.shiftRight_eq_div_pow b, Nat.div_eq_of_lt hb, Nat.xor_zero]

theorem core32_aux (l m A B k : Int) (hl : 0 ≤ l ∧ l < 256) (hm : 0 ≤ m ∧ m < 256) (h : -256 < A - B ∧ A - B < 256)
    (hd : (l - m) * 16777619 = A - B + 4294967296 * k) : l = m := by
  have ht : (l - m) - 256 * k = 0 := by
    have : 16777216 * ((l - m) - 256 * k) + 403 * (l - m) = A - B := by omega
    generalize (l - m) - 256 * k = t at this
    omega
  omega

theorem core32 (u l m : Nat) (hl : l < 256) (hm : m < 256)
    (h : (256 * u + l) * 16777619 % 4294967296 / 256 = (256 * u + m) * 16777619 % 4294967296 / 256) : l = m := by
  have e := Nat.div_add_mod ((256 * u + l) * 16777619) 4294967296
  have f := Nat.div_add_mod ((256 * u + m) * 16777619) 4294967296
  have := core32_aux l m ((256 * u + l) * 16777619 % 4294967296 : Nat) ((256 * u + m) * 16777619 % 4294967296 : Nat)
    (((256 * u + l) * 16777619 / 4294967296 : Nat) - ((256 * u + m) * 16777619 / 4294967296 : Nat)) (by omega) (by omega) (by omega) (by omega)
  omega

theorem core64_aux (l m A B k : Int) (hl : 0 ≤ l ∧ l < 256) (hm : 0 ≤ m ∧ m < 256) (h : -256 < A - B ∧ A - B < 256)
    (hd : (l - m) * 1099511628211 = A - B + 18446744073709551616 * k) : l = m := by
  have ht : (l - m) - 16777216 * k = 0 := by
    have : 1099511627776 * ((l - m) - 16777216 * k) + 435 * (l - m) = A - B := by omega
    generalize (l - m) - 16777216 * k = t at this
    omega
  omega

theorem core64 (u l m : Nat) (hl : l < 256) (hm : m < 256)
    (h : (256 * u + l) * 1099511628211 % 18446744073709551616 / 256 = (256 * u + m) * 1099511628211 % 18446744073709551616 / 256) : l = m := by
  have e := Nat.div_add_mod ((256 * u + l) * 1099511628211) 18446744073709551616
  have f := Nat.div_add_mod ((256 * u + m) * 1099511628211) 18446744073709551616
  have := core64_aux l m ((256 * u + l) * 1099511628211 % 18446744073709551616 : Nat) ((256 * u + m) * 1099511628211 % 18446744073709551616 : Nat)
    (((256 * u + l) * 1099511628211 / 18446744073709551616 : Nat) - ((256 * u + m) * 1099511628211 / 18446744073709551616 : Nat)) (by omega) (by omega) (by omega) (by omega)
  omega

theorem two32 (h : UInt32) (a b c d : UInt8) (e : step32 (step32 h a) b = step32 (step32 h c) d) : a = c ∧ b = d := by
  have e1 := mul_inj32 e
  have key : a = c := by
    have n1 := congrArg UInt32.toNat e1
    simp only [step32, UInt32.toNat_xor, UInt32.toNat_mul, UInt8.toNat_toUInt32] at n1
    have hb := b.toNat_lt
    have hd := d.toNat_lt
    generalize hA : (h.toNat ^^^ a.toNat) * (16777619 : UInt32).toNat % 2 ^ 32 = A at n1
    generalize hC : (h.toNat ^^^ c.toNat) * (16777619 : UInt32).toNat % 2 ^ 32 = C at n1
    have q1 := xor_byte_high _ A b.toNat hb rfl
    have q2 := xor_byte_high _ C d.toNat hd rfl
    rw [n1, q2] at q1
    have ha := a.toNat_lt
    have hc := c.toNat_lt
    have p1 := xor_byte_high _ h.toNat a.toNat ha rfl
    have p2 := xor_byte_high _ h.toNat c.toNat hc rfl
    have hlt : h.toNat < 4294967296 := h.toNat_lt
    have h3 : h.toNat ^^^ a.toNat = h.toNat ^^^ c.toNat := by
      generalize h.toNat ^^^ a.toNat = X at hA p1
      generalize h.toNat ^^^ c.toNat = Y at hC p2
      have eX : X = 256 * (h.toNat / 256) + X % 256 := by omega
      have eY : Y = 256 * (h.toNat / 256) + Y % 256 := by omega
      have hP : (16777619 : UInt32).toNat = 16777619 := rfl
      rw [hP, show (2 : Nat) ^ 32 = 4294967296 from rfl] at hA hC
      rw [← hA, ← hC] at q1
      have := core32 (h.toNat / 256) (X % 256) (Y % 256) (by omega) (by omega) (by rw [← eX, ← eY]; exact q1.symm)
      omega
    have h4 := congrArg (fun z => h.toNat ^^^ z) h3
    simp only [← Nat.xor_assoc, Nat.xor_self, Nat.zero_xor] at h4
    exact UInt8.toNat_inj.1 h4
  subst key
  refine ⟨rfl, ?_⟩
  have e2 := (UInt32.xor_right_inj _).1 e1
  have := congrArg UInt32.toNat e2
  simp only [UInt8.toNat_toUInt32] at this
  exact UInt8.toNat_inj.1 this

theorem two64 (h : UInt64) (a b c d : UInt8) (e : step64 (step64 h a) b = step64 (step64 h c) d) : a = c ∧ b = d := by
  have e1 := mul_inj64 e
  have key : a = c := by
    have n1 := congrArg UInt64.toNat e1
    simp only [step64, UInt64.toNat_xor, UInt64.toNat_mul, UInt8.toNat_toUInt64] at n1
    have hb := b.toNat_lt
    have hd := d.toNat_lt
    generalize hA : (h.toNat ^^^ a.toNat) * (1099511628211 : UInt64).toNat % 2 ^ 64 = A at n1
    generalize hC : (h.toNat ^^^ c.toNat) * (1099511628211 : UInt64).toNat % 2 ^ 64 = C at n1
    have q1 := xor_byte_high _ A b.toNat hb rfl
    have q2 := xor_byte_high _ C d.toNat hd rfl
    rw [n1, q2] at q1
    have ha := a.toNat_lt
    have hc := c.toNat_lt
    have p1 := xor_byte_high _ h.toNat a.toNat ha rfl
    have p2 := xor_byte_high _ h.toNat c.toNat hc rfl
    have hlt : h.toNat < 18446744073709551616 := h.toNat_lt
    have h3 : h.toNat ^^^ a.toNat = h.toNat ^^^ c.toNat := by
      generalize h.toNat ^^^ a.toNat = X at hA p1
      generalize h.toNat ^^^ c.toNat = Y at hC p2
      have eX : X = 256 * (h.toNat / 256) + X % 256 := by omega
      have eY : Y = 256 * (h.toNat / 256) + Y % 256 := by omega
      have hP : (1099511628211 : UInt64).toNat = 1099511628211 := rfl
      rw [hP, show (2 : Nat) ^ 64 = 18446744073709551616 from rfl] at hA hC
      rw [← hA, ← hC] at q1
      have := core64 (h.toNat / 256) (X % 256) (Y % 256) (by omega) (by omega) (by rw [← eX, ← eY]; exact q1.symm)
      omega
    have h4 := congrArg (fun z => h.toNat ^^^ z) h3
    simp only [← Nat.xor_assoc, Nat.xor_self, Nat.zero_xor] at h4
    exact UInt8.toNat_inj.1 h4
  subst key
  refine ⟨rfl, ?_⟩
  have e2 := (UInt64.xor_right_inj _).1 e1
  have := congrArg UInt64.toNat e2
  simp only [UInt8.toNat_toUInt64] at this
  exact UInt8.toNat_inj.1 this

end Gofer.Fnv
