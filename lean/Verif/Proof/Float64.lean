import Verif.Model.Float64
import Mathlib.Data.Rat.Floor
import Mathlib.Algebra.Order.Field.Power
import Mathlib.Tactic.Linarith
import Mathlib.Tactic.FieldSimp
import Mathlib.Tactic.Ring
import Mathlib.Tactic.Positivity
import Mathlib.Tactic.NormNum

/-! # `float64` on rationals: rounding is monotone, exact on integers up to 2⁵³, and close -/
namespace Gofer.F64

theorem pow2_eq (e : Int) : pow2 e = (2 : ℚ) ^ e := by
  unfold pow2
  split
  · rename_i h
    obtain ⟨n, rfl⟩ := Int.eq_ofNat_of_zero_le h
    simp
  · rename_i h
    obtain ⟨n, hn⟩ := Int.eq_ofNat_of_zero_le (show 0 ≤ -e by omega)
    have : e = -(n : Int) := by omega
    subst this
    simp [Rat.mkRat_eq_div]

theorem pow2_pos (e : Int) : 0 < pow2 e := by rw [pow2_eq]; positivity

theorem pow2_add (a b : Int) : pow2 (a + b) = pow2 a * pow2 b := by
  simp only [pow2_eq]; exact zpow_add₀ (by norm_num) a b

theorem pow2_le {a b : Int} (h : a ≤ b) : pow2 a ≤ pow2 b := by
  simp only [pow2_eq]; exact zpow_le_zpow_right₀ (by norm_num) h

theorem pow2_lt {a b : Int} (h : pow2 a < pow2 b) : a < b := by
  apply lt_of_not_ge
  intro hle
  exact absurd (pow2_le hle) (not_le.2 h)

theorem log2_bounds {n : Nat} (h : 0 < n) : 2 ^ n.log2 ≤ n ∧ n < 2 ^ (n.log2 + 1) :=
  ⟨Nat.log2_self_le (by omega), Nat.lt_log2_self⟩

theorem pow2_nat (n : Nat) : pow2 n = (2 : ℚ) ^ n := by rw [pow2_eq]; simp

theorem ilog_spec {q : ℚ} (h : 0 < q) : pow2 (ilog q) ≤ q ∧ q < pow2 (ilog q + 1) := by
  have hn : 0 < q.num := Rat.num_pos.2 h
  have hd : 0 < q.den := q.den_pos
  obtain ⟨a1, a2⟩ := log2_bounds (n := q.num.natAbs) (by omega)
  obtain ⟨b1, b2⟩ := log2_bounds hd
  generalize ha : q.num.natAbs.log2 = a at *
  generalize hb : q.den.log2 = b at *
  have hq : q = (q.num.natAbs : ℚ) / q.den := by
    conv_lhs => rw [← Rat.num_div_den q]
    congr 1
    have : ((q.num.natAbs : ℤ)) = q.num := Int.natAbs_of_nonneg hn.le
    calc (q.num : ℚ) = ((q.num.natAbs : ℤ) : ℚ) := by rw [this]
      _ = _ := Int.cast_natCast _
  have hil : ilog q = if pow2 ((a : Int) - b) ≤ q then (a : Int) - b else (a : Int) - b - 1 := by
    unfold ilog
    simp only [ha, hb]
  generalize q.num.natAbs = N at *
  generalize q.den = D at *
  have hD : (0 : ℚ) < D := by exact_mod_cast hd
  have a1' : (2 : ℚ) ^ a ≤ N := by exact_mod_cast a1
  have a2' : (N : ℚ) < 2 ^ (a + 1) := by exact_mod_cast a2
  have b1' : (2 : ℚ) ^ b ≤ D := by exact_mod_cast b1
  have b2' : (D : ℚ) < 2 ^ (b + 1) := by exact_mod_cast b2
  have hk : pow2 ((a : Int) - b) = 2 ^ a / 2 ^ b := by
    rw [pow2_eq, zpow_sub₀ (by norm_num)]; simp
  -- `2 ^ (a - b - 1) < q < 2 ^ (a - b + 1)`
  have up : q < pow2 ((a : Int) - b + 1) := by
    rw [pow2_add, hk, hq, div_lt_iff₀ hD]
    calc (N : ℚ) < 2 ^ (a + 1) := a2'
      _ = 2 ^ a / 2 ^ b * pow2 1 * 2 ^ b := by rw [pow2_eq]; field_simp; ring
      _ ≤ 2 ^ a / 2 ^ b * pow2 1 * D := by
        apply mul_le_mul_of_nonneg_left b1'
        have := pow2_pos 1
        positivity
  have lo : pow2 ((a : Int) - b - 1) ≤ q := by
    rw [sub_eq_add_neg, pow2_add, hk, hq, le_div_iff₀ hD]
    calc 2 ^ a / 2 ^ b * pow2 (-1) * (D : ℚ) ≤ 2 ^ a / 2 ^ b * pow2 (-1) * 2 ^ (b + 1) := by
          apply mul_le_mul_of_nonneg_left b2'.le
          have := pow2_pos (-1)
          positivity
      _ = 2 ^ a := by rw [pow2_eq, pow_succ]; field_simp
      _ ≤ N := a1'
  rw [hil]
  split
  · rename_i h1; exact ⟨h1, up⟩
  · rename_i h1
    refine ⟨lo, ?_⟩
    rw [sub_add_cancel]
    exact not_le.1 h1

theorem floor_le' (x : ℚ) : (x.floor : ℚ) ≤ x := Rat.floor_le x
theorem lt_floor' (x : ℚ) : x < x.floor + 1 := by
  have := Int.lt_floor_add_one x
  exact this

theorem roundEven_near (x : ℚ) : |(roundEven x : ℚ) - x| ≤ 1 / 2 := by
  have h1 := floor_le' x
  have h2 := lt_floor' x
  unfold roundEven
  simp only
  rw [abs_le]
  split
  · constructor <;> linarith
  · split
    · push_cast; constructor <;> linarith
    · split
      · constructor <;> linarith
      · push_cast; constructor <;> linarith

theorem floor_int (n : Int) : ((n : ℚ)).floor = n := Rat.floor_intCast n

theorem roundEven_int (n : Int) : roundEven n = n := by
  unfold roundEven
  simp only [floor_int, sub_self]
  rw [if_pos (by norm_num)]

theorem roundEven_mono {x y : ℚ} (h : x ≤ y) : roundEven x ≤ roundEven y := by
  have hx1 := floor_le' x
  have hx2 := lt_floor' x
  have hy1 := floor_le' y
  have hy2 := lt_floor' y
  have hf : x.floor ≤ y.floor := Int.floor_le_floor h
  rcases hf.lt_or_eq with hlt | heq
  · have a : roundEven x ≤ x.floor + 1 := by
      unfold roundEven; simp only
      split
      · omega
      · split
        · omega
        · split <;> omega
    have b : y.floor ≤ roundEven y := by
      unfold roundEven; simp only
      split
      · omega
      · split
        · omega
        · split <;> omega
    omega
  · unfold roundEven
    simp only [heq]
    rw [heq] at hx1 hx2
    by_cases c1 : x - y.floor < 1 / 2
    · rw [if_pos c1]
      split
      · omega
      · split
        · omega
        · split <;> omega
    · have c2 : ¬ y - y.floor < 1 / 2 := by intro h'; apply c1; linarith
      rw [if_neg c1, if_neg c2]
      by_cases c3 : 1 / 2 < x - y.floor
      · rw [if_pos c3, if_pos (by linarith)]
      · rw [if_neg c3]
        by_cases c4 : 1 / 2 < y - y.floor
        · rw [if_pos c4]; split <;> omega
        · rw [if_neg c4]

theorem rnd_zero : rnd 0 = 0 := by simp [rnd]

theorem rnd_of_pos {q : ℚ} (h : 0 < q) : rnd q = roundEven (q / pow2 (ilog q - 52)) * pow2 (ilog q - 52) := by
  simp only [rnd, if_neg h.ne', if_pos h.le]

/-- Rounding changes a number by at most its 2⁵³th part. -/
theorem rnd_rel {q : ℚ} (h : 0 < q) : |rnd q - q| ≤ q / 2 ^ 53 := by
  rw [rnd_of_pos h]
  obtain ⟨h1, _⟩ := ilog_spec h
  have hp := pow2_pos (ilog q - 52)
  have hn := roundEven_near (q / pow2 (ilog q - 52))
  have e : q / pow2 (ilog q - 52) * pow2 (ilog q - 52) = q := div_mul_cancel₀ q hp.ne'
  have e2 : pow2 (ilog q - 52) * 2 ^ 52 = pow2 (ilog q) := by
    rw [← pow2_nat 52, ← pow2_add]; norm_num
  calc |(roundEven (q / pow2 (ilog q - 52)) : ℚ) * pow2 (ilog q - 52) - q|
      = |(roundEven (q / pow2 (ilog q - 52)) : ℚ) - q / pow2 (ilog q - 52)| * pow2 (ilog q - 52) := by
        conv_lhs => rw [← e]
        rw [e, ← abs_of_pos hp, ← abs_mul, abs_of_pos hp, sub_mul, e]
    _ ≤ 1 / 2 * pow2 (ilog q - 52) := mul_le_mul_of_nonneg_right hn hp.le
    _ ≤ q / 2 ^ 53 := by
      rw [le_div_iff₀ (by norm_num)]
      nlinarith

theorem rnd_pos {q : ℚ} (h : 0 < q) : 0 < rnd q := by
  have := (abs_le.1 (rnd_rel h)).1
  have : q / 2 ^ 53 < q := by rw [div_lt_iff₀ (by norm_num)]; nlinarith
  linarith

theorem rnd_mono_pos {p q : ℚ} (hp : 0 < p) (h : p ≤ q) : rnd p ≤ rnd q := by
  have hq := lt_of_lt_of_le hp h
  obtain ⟨p1, p2⟩ := ilog_spec hp
  obtain ⟨q1, q2⟩ := ilog_spec hq
  rw [rnd_of_pos hp, rnd_of_pos hq]
  have hle : ilog p ≤ ilog q := by
    have : pow2 (ilog p) < pow2 (ilog q + 1) := by linarith
    have := pow2_lt this
    omega
  rcases hle.lt_or_eq with hlt | heq
  · have pp := pow2_pos (ilog p - 52)
    have pq := pow2_pos (ilog q - 52)
    have e53 : pow2 (ilog p - 52) * 2 ^ 53 = pow2 (ilog p + 1) := by
      rw [← pow2_nat 53, ← pow2_add]; congr 1; push_cast; ring
    have e52 : pow2 (ilog q - 52) * 2 ^ 52 = pow2 (ilog q) := by
      rw [← pow2_nat 52, ← pow2_add]; norm_num
    have a : roundEven (p / pow2 (ilog p - 52)) ≤ 2 ^ 53 := by
      have : p / pow2 (ilog p - 52) ≤ ((2 ^ 53 : Int) : ℚ) := by
        rw [div_le_iff₀ pp]; push_cast; linarith
      have := roundEven_mono this
      rwa [roundEven_int] at this
    have b : 2 ^ 52 ≤ roundEven (q / pow2 (ilog q - 52)) := by
      have : ((2 ^ 52 : Int) : ℚ) ≤ q / pow2 (ilog q - 52) := by
        rw [le_div_iff₀ pq]; push_cast; linarith
      have := roundEven_mono this
      rwa [roundEven_int] at this
    have a' : (roundEven (p / pow2 (ilog p - 52)) : ℚ) ≤ 2 ^ 53 := by exact_mod_cast a
    have b' : (2 ^ 52 : ℚ) ≤ roundEven (q / pow2 (ilog q - 52)) := by exact_mod_cast b
    calc (roundEven (p / pow2 (ilog p - 52)) : ℚ) * pow2 (ilog p - 52) ≤ 2 ^ 53 * pow2 (ilog p - 52) := mul_le_mul_of_nonneg_right a' pp.le
      _ = pow2 (ilog p + 1) := by rw [← e53]; ring
      _ ≤ pow2 (ilog q) := pow2_le (by omega)
      _ = 2 ^ 52 * pow2 (ilog q - 52) := by rw [← e52]; ring
      _ ≤ _ := mul_le_mul_of_nonneg_right b' pq.le
  · rw [heq]
    have pq := pow2_pos (ilog q - 52)
    apply mul_le_mul_of_nonneg_right _ pq.le
    have : roundEven (p / pow2 (ilog q - 52)) ≤ roundEven (q / pow2 (ilog q - 52)) :=
      roundEven_mono (div_le_div_of_nonneg_right h pq.le)
    exact_mod_cast this

theorem floor_neg (x : ℚ) : (-x).floor = -x.floor ∨ (-x).floor = -x.floor - 1 := by
  have h1 := floor_le' x
  have h2 := lt_floor' x
  have h3 := floor_le' (-x)
  have h4 := lt_floor' (-x)
  have a : ((-x).floor : ℚ) < -x.floor + 1 := by linarith
  have b : (-x.floor - 2 : ℚ) < (-x).floor := by linarith
  have a' : (-x).floor < -x.floor + 1 := by exact_mod_cast a
  have b' : -x.floor - 2 < (-x).floor := by exact_mod_cast b
  omega

theorem roundEven_neg (x : ℚ) : roundEven (-x) = -roundEven x := by
  have h1 := floor_le' x
  have h2 := lt_floor' x
  have h3 := floor_le' (-x)
  have h4 := lt_floor' (-x)
  rcases floor_neg x with e | e
  · -- `x` is an integer
    have hx : x = (x.floor : ℚ) := by
      rw [e] at h3; push_cast at h3; linarith
    rw [hx]
    have : (-(x.floor : ℚ)) = ((-x.floor : Int) : ℚ) := by push_cast; rfl
    rw [this, roundEven_int, roundEven_int]
  · unfold roundEven
    simp only [e]
    push_cast
    by_cases c1 : x - x.floor < 1 / 2
    · rw [if_neg (show ¬ -x - (-(x.floor : ℚ) - 1) < 1 / 2 by linarith), if_pos (show 1 / 2 < -x - (-(x.floor : ℚ) - 1) by linarith), if_pos c1]
      omega
    · rw [if_neg c1]
      by_cases c2 : 1 / 2 < x - x.floor
      · rw [if_pos (show -x - (-(x.floor : ℚ) - 1) < 1 / 2 by linarith), if_pos c2]; omega
      · rw [if_neg c2, if_neg (show ¬ -x - (-(x.floor : ℚ) - 1) < 1 / 2 by linarith), if_neg (show ¬ 1 / 2 < -x - (-(x.floor : ℚ) - 1) by linarith)]
        by_cases c3 : x.floor % 2 = 0
        · rw [if_pos c3, if_neg (by omega)]; omega
        · rw [if_neg c3, if_pos (by omega)]; omega

theorem rnd_neg (q : ℚ) : rnd (-q) = -rnd q := by
  by_cases h0 : q = 0
  · simp [h0, rnd_zero]
  · unfold rnd
    rw [if_neg h0, if_neg (by simpa using h0)]
    have e : (if 0 ≤ -q then -q else - -q) = (if 0 ≤ q then q else -q) := by
      rcases lt_or_gt_of_ne h0 with h | h
      · rw [if_pos (by linarith), if_neg (by linarith)]
      · rw [if_neg (by linarith), if_pos h.le]; ring
    simp only [e]
    rw [neg_div, roundEven_neg]
    push_cast
    ring

theorem rnd_nonneg {q : ℚ} (h : 0 ≤ q) : 0 ≤ rnd q := by
  rcases h.lt_or_eq with h | h
  · exact (rnd_pos h).le
  · rw [← h, rnd_zero]

theorem rnd_nonpos {q : ℚ} (h : q ≤ 0) : rnd q ≤ 0 := by
  have := rnd_nonneg (q := -q) (by linarith)
  rw [rnd_neg] at this
  linarith

theorem rnd_mono {p q : ℚ} (h : p ≤ q) : rnd p ≤ rnd q := by
  rcases lt_or_ge 0 p with hp | hp
  · exact rnd_mono_pos hp h
  · rcases lt_or_ge q 0 with hq | hq
    · have := rnd_mono_pos (p := -q) (q := -p) (by linarith) (by linarith)
      rw [rnd_neg, rnd_neg] at this
      linarith
    · exact le_trans (rnd_nonpos hp) (rnd_nonneg hq)

/-- Integers up to 2⁵³ are exact. -/
theorem rnd_nat {n : Nat} (h : n ≤ 2 ^ 53) : rnd n = n := by
  rcases Nat.eq_zero_or_pos n with rfl | hn
  · simp [rnd_zero]
  have hq : (0 : ℚ) < n := by exact_mod_cast hn
  obtain ⟨h1, h2⟩ := ilog_spec hq
  rw [rnd_of_pos hq]
  have hle : ilog (n : ℚ) ≤ 53 := by
    have : pow2 (ilog (n : ℚ)) < pow2 54 := by
      calc pow2 (ilog (n : ℚ)) ≤ n := h1
        _ ≤ 2 ^ 53 := by exact_mod_cast h
        _ < pow2 54 := by rw [pow2_eq]; norm_num
    have := pow2_lt this
    omega
  have hp := pow2_pos (ilog (n : ℚ) - 52)
  suffices H : ∃ k : Int, (n : ℚ) / pow2 (ilog (n : ℚ) - 52) = k by
    obtain ⟨k, hk⟩ := H
    rw [hk, roundEven_int, ← hk, div_mul_cancel₀ _ hp.ne']
  rcases hle.lt_or_eq with hlt | heq
  · obtain ⟨j, hj⟩ := Int.eq_ofNat_of_zero_le (show 0 ≤ 52 - ilog (n : ℚ) by omega)
    refine ⟨n * 2 ^ j, ?_⟩
    have : ilog (n : ℚ) - 52 = -(j : Int) := by omega
    rw [this, pow2_eq]
    push_cast
    rw [zpow_neg, div_inv_eq_mul]
    simp
  · have : (n : ℚ) = 2 ^ 53 := by
      rw [heq, pow2_eq] at h1
      have h3 : (n : ℚ) ≤ 2 ^ 53 := by exact_mod_cast h
      have h4 : (2 : ℚ) ^ (53 : Int) = 2 ^ 53 := by norm_num
      linarith
    rw [heq, this, pow2_eq]
    exact ⟨2 ^ 52, by norm_num⟩

theorem rnd_int {n : Int} (h1 : -2 ^ 53 ≤ n) (h2 : n ≤ 2 ^ 53) : rnd n = n := by
  rcases le_total 0 n with h | h
  · obtain ⟨k, rfl⟩ := Int.eq_ofNat_of_zero_le h
    have := rnd_nat (n := k) (by omega)
    exact_mod_cast this
  · obtain ⟨k, hk⟩ := Int.eq_ofNat_of_zero_le (show 0 ≤ -n by omega)
    have hn : n = -(k : Int) := by omega
    have := rnd_nat (n := k) (by omega)
    rw [hn]
    push_cast
    rw [rnd_neg, this]

/-- Rounding does not cross an integer up to 2⁵³. -/
theorem rnd_le_int {q : ℚ} {n : Int} (h1 : -2 ^ 53 ≤ n) (h2 : n ≤ 2 ^ 53) (h : q ≤ n) : rnd q ≤ n := by
  have := rnd_mono h
  rwa [rnd_int h1 h2] at this

theorem le_rnd_int {q : ℚ} {n : Int} (h1 : -2 ^ 53 ≤ n) (h2 : n ≤ 2 ^ 53) (h : (n : ℚ) ≤ q) : (n : ℚ) ≤ rnd q := by
  have := rnd_mono h
  rwa [rnd_int h1 h2] at this

theorem rnd_bounds {q : ℚ} (h : 0 ≤ q) : q * (1 - 1 / 2 ^ 53) ≤ rnd q ∧ rnd q ≤ q * (1 + 1 / 2 ^ 53) := by
  rcases h.lt_or_eq with h | h
  · have := abs_le.1 (rnd_rel h)
    have e : q / 2 ^ 53 = q * (1 / 2 ^ 53) := by ring
    rw [e] at this
    constructor <;> linarith [this.1, this.2]
  · subst h; simp [rnd_zero]

theorem toInt_le {q : ℚ} {n : Int} (h : q ≤ n) (hn : 0 ≤ n) : toInt q ≤ n := by
  unfold toInt
  split
  · have := floor_le' q
    have : (q.floor : ℚ) ≤ n := by linarith
    exact_mod_cast this
  · rename_i hq
    have h0 : (0 : ℚ) ≤ -q := by linarith [not_le.1 hq]
    have : 0 ≤ (-q).floor := Int.floor_nonneg.2 h0
    omega

theorem le_toInt {q : ℚ} {n : Int} (h : (n : ℚ) ≤ q) (hq : 0 ≤ q) : n ≤ toInt q := by
  unfold toInt
  rw [if_pos hq]
  exact Int.le_floor.2 h

theorem toInt_nonneg {q : ℚ} (h : 0 ≤ q) : 0 ≤ toInt q := le_toInt (n := 0) (by simpa using h) h

theorem toInt_near {q : ℚ} (h : 0 ≤ q) : (toInt q : ℚ) ≤ q ∧ q < toInt q + 1 := by
  unfold toInt
  rw [if_pos h]
  exact ⟨floor_le' q, lt_floor' q⟩

theorem toInt_int (n : Int) : toInt n = n := by
  unfold toInt
  split
  · exact floor_int n
  · have : (-(n : ℚ)) = ((-n : Int) : ℚ) := by push_cast; rfl
    rw [this, floor_int]; omega

/-- The square of the rounded square root. -/
theorem sqrt_sq {q : ℚ} (h : 0 < q) : 0 ≤ sqrt q ∧ sqrt q * sqrt q ≤ q * (1 + 1 / 2 ^ 51) := by
  unfold sqrt
  rw [if_neg (not_le.2 h)]
  simp only
  obtain ⟨h1, _⟩ := ilog_spec h
  generalize he : ilog q / 2 - 52 = e
  have hp := pow2_pos e
  have hpp : 0 < pow2 e * pow2 e := mul_pos hp hp
  generalize hx : q / (pow2 e * pow2 e) = x
  have hq : q = x * (pow2 e * pow2 e) := by rw [← hx, div_mul_cancel₀ _ hpp.ne']
  have hxl : (2 : ℚ) ^ 104 ≤ x := by
    rw [← hx, le_div_iff₀ hpp, ← pow2_nat 104, ← pow2_add, ← pow2_add]
    refine le_trans (pow2_le ?_) h1
    push_cast
    omega
  have hx0 : 0 ≤ x := le_trans (by norm_num) hxl
  have hfl : (x.floor : ℚ) ≤ x := floor_le' x
  have hf0 : 0 ≤ x.floor := Int.floor_nonneg.2 hx0
  have hf1 : (2 : Int) ^ 104 ≤ x.floor := Int.le_floor.2 (by push_cast; exact hxl)
  generalize hm : Nat.sqrt x.floor.toNat = m
  have hm1 : m * m ≤ x.floor.toNat := by rw [← hm]; exact Nat.sqrt_le _
  have hm2 : 2 ^ 52 ≤ m := by
    rw [← hm, Nat.le_sqrt]
    have : (2 ^ 52 * 2 ^ 52 : Nat) = 2 ^ 104 := by norm_num
    rw [this]
    omega
  have hm1' : (m : ℚ) * m ≤ x := by
    have : ((m * m : Nat) : Int) ≤ x.floor := by omega
    have : (((m * m : Nat) : Int) : ℚ) ≤ x.floor := by exact_mod_cast this
    push_cast at this
    linarith
  have hm2' : (2 : ℚ) ^ 52 ≤ m := by exact_mod_cast hm2
  have hm0 : (0 : ℚ) ≤ m := by positivity
  -- the significand `k` satisfies `(k - 1/2)² ≤ x`
  obtain ⟨k, hk, hk1, hk2⟩ : ∃ k : ℚ, (if (m : ℚ) * m + m + 1 / 4 < x then (m : ℚ) + 1 else m) = k ∧ 2 ^ 52 ≤ k ∧ (k - 1 / 2) * (k - 1 / 2) ≤ x := by
    split
    · rename_i hc
      exact ⟨_, rfl, by linarith, by nlinarith⟩
    · exact ⟨_, rfl, hm2', by nlinarith⟩
  rw [hk]
  have hk0 : 0 ≤ k := le_trans (by norm_num) hk1
  refine ⟨mul_nonneg hk0 hp.le, ?_⟩
  have key : k * k ≤ x * (1 + 1 / 2 ^ 51) := by
    have h3 : k - 1 / 4 ≤ (k - 1 / 2) * (k - 1 / 2) * (1 / 2 ^ 51) := by
      norm_num at hk1 ⊢
      nlinarith
    nlinarith
  calc k * pow2 e * (k * pow2 e) = k * k * (pow2 e * pow2 e) := by ring
    _ ≤ x * (1 + 1 / 2 ^ 51) * (pow2 e * pow2 e) := mul_le_mul_of_nonneg_right key hpp.le
    _ = q * (1 + 1 / 2 ^ 51) := by rw [hq]; ring

theorem ilog_unique {q : ℚ} {a : Int} (h1 : pow2 a ≤ q) (h2 : q < pow2 (a + 1)) : ilog q = a := by
  have h0 : 0 < q := lt_of_lt_of_le (pow2_pos a) h1
  obtain ⟨b1, b2⟩ := ilog_spec h0
  have := pow2_lt (lt_of_le_of_lt b1 h2)
  have := pow2_lt (lt_of_le_of_lt h1 b2)
  omega

theorem rnd_scale {q : ℚ} (h : 0 < q) (k : Int) : rnd (q * pow2 k) = rnd q * pow2 k := by
  have hk := pow2_pos k
  obtain ⟨b1, b2⟩ := ilog_spec h
  have e : ilog (q * pow2 k) = ilog q + k := by
    apply ilog_unique
    · rw [pow2_add]; exact mul_le_mul_of_nonneg_right b1 hk.le
    · rw [add_right_comm, pow2_add]; exact mul_lt_mul_of_pos_right b2 hk
  rw [rnd_of_pos (mul_pos h hk), rnd_of_pos h, e]
  have e2 : pow2 (ilog q + k - 52) = pow2 (ilog q - 52) * pow2 k := by rw [← pow2_add]; congr 1; omega
  rw [e2, mul_div_mul_right _ _ hk.ne', mul_assoc]

/-- What is rounded stays. -/
theorem rnd_rnd {q : ℚ} (h : 0 < q) : rnd (rnd q) = rnd q := by
  have hp := rnd_pos h
  rw [rnd_of_pos h] at hp ⊢
  have hk := pow2_pos (ilog q - 52)
  obtain ⟨b1, b2⟩ := ilog_spec h
  have m0 : (0 : ℚ) < roundEven (q / pow2 (ilog q - 52)) := pos_of_mul_pos_left hp hk.le
  rw [rnd_scale m0]
  congr 1
  have hle : q / pow2 (ilog q - 52) ≤ ((2 ^ 53 : Int) : ℚ) := by
    rw [div_le_iff₀ hk]
    have : ((2 ^ 53 : Int) : ℚ) * pow2 (ilog q - 52) = pow2 (ilog q + 1) := by
      have : ((2 ^ 53 : Int) : ℚ) = pow2 53 := by rw [pow2_eq]; norm_num
      rw [this, ← pow2_add]; congr 1; omega
    rw [this]; exact b2.le
  have := roundEven_mono hle
  rw [roundEven_int] at this
  have m1 : 0 < roundEven (q / pow2 (ilog q - 52)) := by exact_mod_cast m0
  exact rnd_int (by omega) this

end Gofer.F64
