import Verif.Model.Image
import Verif.Proof.Float64

/-! # Sizes in `image` -/
namespace Gofer.Image
open Gofer F64

theorem toInt_lt {q : ℚ} {n : Int} (h : q < n + 1) (hn : 0 ≤ n) : toInt q ≤ n := by
  unfold toInt
  split
  · have := floor_le' q
    have : (q.floor : ℚ) < ((n + 1 : Int) : ℚ) := by push_cast; linarith
    have : q.floor < n + 1 := by exact_mod_cast this
    omega
  · rename_i hq
    have h0 : (0 : ℚ) ≤ -q := by linarith [not_le.1 hq]
    have : 0 ≤ (-q).floor := Int.floor_nonneg.2 h0
    omega

theorem lt_toInt {q : ℚ} {n : Int} (h : (n : ℚ) - 1 < q) (hq : 0 ≤ q) : n - 1 ≤ toInt q := by
  apply le_toInt _ hq
  push_cast; linarith

theorem ofInt_exact {n : Int} (h1 : -2 ^ 53 ≤ n) (h2 : n ≤ 2 ^ 53) : ofInt n = n := rnd_int h1 h2

theorem ofInt_nonpos {n : Int} (h : n ≤ 0) : ofInt n ≤ 0 := rnd_nonpos (by exact_mod_cast h)

/-- The ratio of two sides. -/
theorem ratio_near {w h : Int} (hw : 1 ≤ w) (hw' : w ≤ 2 ^ 50) (hh : 1 ≤ h) (hh' : h ≤ 2 ^ 50) :
    0 < div (ofInt w) (ofInt h) ∧ (w : ℚ) * (1 - 1 / 2 ^ 53) ≤ div (ofInt w) (ofInt h) * h ∧ div (ofInt w) (ofInt h) * h ≤ w * (1 + 1 / 2 ^ 53) := by
  rw [ofInt_exact (by omega) (by omega), ofInt_exact (by omega) (by omega)]
  have w0 : (0 : ℚ) < w := by exact_mod_cast (by omega : (0 : Int) < w)
  have h0 : (0 : ℚ) < h := by exact_mod_cast (by omega : (0 : Int) < h)
  unfold div
  have hq : (0 : ℚ) < w / h := by positivity
  obtain ⟨b1, b2⟩ := rnd_bounds hq.le
  have e : (w : ℚ) / h * h = w := div_mul_cancel₀ _ h0.ne'
  refine ⟨rnd_pos hq, ?_, ?_⟩
  · calc (w : ℚ) * (1 - 1 / 2 ^ 53) = w / h * (1 - 1 / 2 ^ 53) * h := by rw [mul_right_comm, e]
      _ ≤ _ := mul_le_mul_of_nonneg_right b1 h0.le
  · calc rnd ((w : ℚ) / h) * h ≤ w / h * (1 + 1 / 2 ^ 53) * h := mul_le_mul_of_nonneg_right b2 h0.le
      _ = _ := by rw [mul_right_comm, e]

/-- `float64(n) * (float64(w) / float64(h))`. -/
theorem mulr_near {n w h : Int} (hn : 0 ≤ n) (hn' : n ≤ 2 ^ 50) (hw : 1 ≤ w) (hw' : w ≤ 2 ^ 50) (hh : 1 ≤ h) (hh' : h ≤ 2 ^ 50) :
    0 ≤ mul (ofInt n) (div (ofInt w) (ofInt h)) ∧ (n : ℚ) * w * (1 - 1 / 2 ^ 51) ≤ mul (ofInt n) (div (ofInt w) (ofInt h)) * h ∧
      mul (ofInt n) (div (ofInt w) (ofInt h)) * h ≤ n * w * (1 + 1 / 2 ^ 51) := by
  obtain ⟨r0, r1, r2⟩ := ratio_near hw hw' hh hh'
  generalize div (ofInt w) (ofInt h) = r at *
  rw [ofInt_exact (by omega) (by omega)]
  have n0 : (0 : ℚ) ≤ n := by exact_mod_cast hn
  have w0 : (0 : ℚ) ≤ w := by exact_mod_cast (by omega : (0 : Int) ≤ w)
  have h0 : (0 : ℚ) < h := by exact_mod_cast (by omega : (0 : Int) < h)
  have nw0 : (0 : ℚ) ≤ n * w := by positivity
  unfold mul
  have hq : (0 : ℚ) ≤ n * r := by positivity
  obtain ⟨b1, b2⟩ := rnd_bounds hq
  refine ⟨rnd_nonneg hq, ?_, ?_⟩
  · calc (n : ℚ) * w * (1 - 1 / 2 ^ 51) ≤ n * w * ((1 - 1 / 2 ^ 53) * (1 - 1 / 2 ^ 53)) := mul_le_mul_of_nonneg_left (by norm_num) nw0
      _ = n * (w * (1 - 1 / 2 ^ 53)) * (1 - 1 / 2 ^ 53) := by ring
      _ ≤ n * (r * h) * (1 - 1 / 2 ^ 53) := mul_le_mul_of_nonneg_right (mul_le_mul_of_nonneg_left r1 n0) (by norm_num)
      _ = n * r * (1 - 1 / 2 ^ 53) * h := by ring
      _ ≤ _ := mul_le_mul_of_nonneg_right b1 h0.le
  · calc rnd (n * r) * h ≤ n * r * (1 + 1 / 2 ^ 53) * h := mul_le_mul_of_nonneg_right b2 h0.le
      _ = n * (r * h) * (1 + 1 / 2 ^ 53) := by ring
      _ ≤ n * (w * (1 + 1 / 2 ^ 53)) * (1 + 1 / 2 ^ 53) := mul_le_mul_of_nonneg_right (mul_le_mul_of_nonneg_left r2 n0) (by norm_num)
      _ = n * w * ((1 + 1 / 2 ^ 53) * (1 + 1 / 2 ^ 53)) := by ring
      _ ≤ _ := mul_le_mul_of_nonneg_left (by norm_num) nw0

/-- `float64(n) / (float64(w) / float64(h))`. -/
theorem divr_near {n w h : Int} (hn : 0 ≤ n) (hn' : n ≤ 2 ^ 50) (hw : 1 ≤ w) (hw' : w ≤ 2 ^ 50) (hh : 1 ≤ h) (hh' : h ≤ 2 ^ 50) :
    0 ≤ div (ofInt n) (div (ofInt w) (ofInt h)) ∧ (n : ℚ) * h * (1 - 1 / 2 ^ 51) ≤ div (ofInt n) (div (ofInt w) (ofInt h)) * w ∧
      div (ofInt n) (div (ofInt w) (ofInt h)) * w ≤ n * h * (1 + 1 / 2 ^ 51) := by
  obtain ⟨r0, r1, r2⟩ := ratio_near hw hw' hh hh'
  generalize div (ofInt w) (ofInt h) = r at *
  rw [ofInt_exact (by omega) (by omega)]
  have n0 : (0 : ℚ) ≤ n := by exact_mod_cast hn
  have w0 : (0 : ℚ) < w := by exact_mod_cast (by omega : (0 : Int) < w)
  have h0 : (0 : ℚ) < h := by exact_mod_cast (by omega : (0 : Int) < h)
  have nh0 : (0 : ℚ) ≤ n * h := by positivity
  unfold div
  have hq : (0 : ℚ) ≤ n / r := by positivity
  obtain ⟨b1, b2⟩ := rnd_bounds hq
  have lo : (n : ℚ) * h * (1 - 1 / 2 ^ 52) ≤ n / r * w := by
    rw [div_mul_eq_mul_div, le_div_iff₀ r0]
    have e1 : (n : ℚ) * h * (1 - 1 / 2 ^ 52) * r = n * (1 - 1 / 2 ^ 52) * (r * h) := by ring
    have e2 : (n : ℚ) * (1 - 1 / 2 ^ 52) * (r * h) ≤ n * (1 - 1 / 2 ^ 52) * (w * (1 + 1 / 2 ^ 53)) := mul_le_mul_of_nonneg_left r2 (mul_nonneg n0 (by norm_num))
    have e3 : (n : ℚ) * (1 - 1 / 2 ^ 52) * (w * (1 + 1 / 2 ^ 53)) = n * w * ((1 - 1 / 2 ^ 52) * (1 + 1 / 2 ^ 53)) := by ring
    have e4 : (n : ℚ) * w * ((1 - 1 / 2 ^ 52) * (1 + 1 / 2 ^ 53)) ≤ n * w * 1 := mul_le_mul_of_nonneg_left (by norm_num) (by positivity)
    linarith
  have up : (n : ℚ) / r * w ≤ n * h * (1 + 5 / 2 ^ 54) := by
    rw [div_mul_eq_mul_div, div_le_iff₀ r0]
    calc (n : ℚ) * w = n * w * 1 := by ring
      _ ≤ n * w * ((1 + 5 / 2 ^ 54) * (1 - 1 / 2 ^ 53)) := mul_le_mul_of_nonneg_left (by norm_num) (by positivity)
      _ = n * (1 + 5 / 2 ^ 54) * (w * (1 - 1 / 2 ^ 53)) := by ring
      _ ≤ n * (1 + 5 / 2 ^ 54) * (r * h) := mul_le_mul_of_nonneg_left r1 (mul_nonneg n0 (by norm_num))
      _ = _ := by ring
  refine ⟨rnd_nonneg hq, ?_, ?_⟩
  · calc (n : ℚ) * h * (1 - 1 / 2 ^ 51) ≤ n * h * ((1 - 1 / 2 ^ 52) * (1 - 1 / 2 ^ 53)) := mul_le_mul_of_nonneg_left (by norm_num) nh0
      _ = n * h * (1 - 1 / 2 ^ 52) * (1 - 1 / 2 ^ 53) := by ring
      _ ≤ n / r * w * (1 - 1 / 2 ^ 53) := mul_le_mul_of_nonneg_right lo (by norm_num)
      _ = n / r * (1 - 1 / 2 ^ 53) * w := by ring
      _ ≤ _ := mul_le_mul_of_nonneg_right b1 w0.le
  · calc rnd (n / r) * w ≤ n / r * (1 + 1 / 2 ^ 53) * w := mul_le_mul_of_nonneg_right b2 w0.le
      _ = n / r * w * (1 + 1 / 2 ^ 53) := by ring
      _ ≤ n * h * (1 + 5 / 2 ^ 54) * (1 + 1 / 2 ^ 53) := mul_le_mul_of_nonneg_right up (by norm_num)
      _ = n * h * ((1 + 5 / 2 ^ 54) * (1 + 1 / 2 ^ 53)) := by ring
      _ ≤ n * h * (1 + 1 / 2 ^ 51) := mul_le_mul_of_nonneg_left (by norm_num) nh0

/-- From an approximation of `n * w / h` to an inequality between integers: never above the given side. -/
theorem side_le {q : ℚ} {n w h : Int} (hw : 1 ≤ w) (hw' : w ≤ 2 ^ 50) (hh : 1 ≤ h) (hn : n ≤ h)
    (hq : q * h ≤ n * w * (1 + 1 / 2 ^ 51)) : toInt q ≤ w := by
  apply toInt_lt _ (by omega)
  have w0 : (0 : ℚ) < w := by exact_mod_cast (by omega : (0 : Int) < w)
  have h0 : (0 : ℚ) < h := by exact_mod_cast (by omega : (0 : Int) < h)
  have w1 : (w : ℚ) ≤ 2 ^ 50 := by exact_mod_cast hw'
  have nh : (n : ℚ) ≤ h := by exact_mod_cast hn
  apply lt_of_mul_lt_mul_right _ h0.le
  calc q * h ≤ n * w * (1 + 1 / 2 ^ 51) := hq
    _ ≤ h * w * (1 + 1 / 2 ^ 51) := mul_le_mul_of_nonneg_right (mul_le_mul_of_nonneg_right nh w0.le) (by norm_num)
    _ = h * (w * (1 + 1 / 2 ^ 51)) := by ring
    _ < h * (w + 1) := by
      apply mul_lt_mul_of_pos_left _ h0
      norm_num at w1 ⊢; linarith
    _ = _ := by ring

theorem mulr_neg {n : Int} {r : ℚ} (hr : 0 < r) (hn : n ≤ 0) : toInt (mul (ofInt n) r) ≤ 0 := by
  apply toInt_le _ (le_refl _)
  have := ofInt_nonpos hn
  push_cast
  exact rnd_nonpos (by nlinarith)

theorem divr_neg {n : Int} {r : ℚ} (hr : 0 < r) (hn : n ≤ 0) : toInt (div (ofInt n) r) ≤ 0 := by
  apply toInt_le _ (le_refl _)
  have := ofInt_nonpos hn
  push_cast
  exact rnd_nonpos (div_nonpos_of_nonpos_of_nonneg this hr.le)

section
variable {w h : Int} (hw : 1 ≤ w) (hw' : w ≤ 2 ^ 31) (hh : 1 ≤ h) (hh' : h ≤ 2 ^ 31)
include hw hw' hh hh'

theorem mulr_le {n : Int} (hn : n ≤ h) : toInt (mul (ofInt n) (div (ofInt w) (ofInt h))) ≤ w := by
  rcases le_total n 0 with h0 | h0
  · have := mulr_neg (ratio_near hw (by omega) hh (by omega)).1 h0
    omega
  · exact side_le hw (by omega) hh hn (mulr_near h0 (by omega) hw (by omega) hh (by omega)).2.2

theorem divr_le {n : Int} (hn : n ≤ w) : toInt (div (ofInt n) (div (ofInt w) (ofInt h))) ≤ h := by
  rcases le_total n 0 with h0 | h0
  · have := divr_neg (ratio_near hw (by omega) hh (by omega)).1 h0
    omega
  · exact side_le hh (by omega) hw hn (divr_near h0 (by omega) hw (by omega) hh (by omega)).2.2

theorem mulr_nonneg {n : Int} (h0 : 0 ≤ n) (hn : n ≤ 2 ^ 31) : 0 ≤ toInt (mul (ofInt n) (div (ofInt w) (ofInt h))) :=
  toInt_nonneg (mulr_near h0 (by omega) hw (by omega) hh (by omega)).1

theorem divr_nonneg {n : Int} (h0 : 0 ≤ n) (hn : n ≤ 2 ^ 31) : 0 ≤ toInt (div (ofInt n) (div (ofInt w) (ofInt h))) :=
  toInt_nonneg (divr_near h0 (by omega) hw (by omega) hh (by omega)).1

theorem min_le (nw nh : Int) : (getMinAndkeepRatio w h nw nh).1 ≤ w ∧ (getMinAndkeepRatio w h nw nh).2 ≤ h := by
  unfold getMinAndkeepRatio
  simp only
  generalize (if nw = 0 then w else nw) = a
  generalize (if nh = 0 then h else nh) = b
  split
  · exact ⟨le_refl _, le_refl _⟩
  · split
    · split
      · exact ⟨mulr_le hw hw' hh hh' (by omega), by show b ≤ h; omega⟩
      · exact ⟨by show a ≤ w; omega, divr_le hw hw' hh hh' (by omega)⟩
    · split
      · exact ⟨mulr_le hw hw' hh hh' (by omega), by show b ≤ h; omega⟩
      · exact ⟨by show a ≤ w; omega, divr_le hw hw' hh hh' (by omega)⟩

theorem max_le (nw nh : Int) : (getMaxAndkeepRatio w h nw nh).1 ≤ w ∧ (getMaxAndkeepRatio w h nw nh).2 ≤ h := by
  unfold getMaxAndkeepRatio
  simp only
  generalize (if nw = 0 then w else nw) = a
  generalize (if nh = 0 then h else nh) = b
  split
  · exact ⟨le_refl _, le_refl _⟩
  · split
    · split
      · exact ⟨by show a ≤ w; omega, divr_le hw hw' hh hh' (by omega)⟩
      · exact ⟨mulr_le hw hw' hh hh' (by omega), by show b ≤ h; omega⟩
    · exact ⟨by show a ≤ w; omega, by show b ≤ h; omega⟩

/-- The side that `imaging.Resize` chooses when it is given 0. -/
theorem auto_near {n : Int} (h0 : 0 ≤ n) (hn : n ≤ 2 ^ 31) :
    (n : ℚ) * w * (1 - 1 / 2 ^ 51) ≤ div (mul (ofInt n) (ofInt w)) (ofInt h) * h ∧ div (mul (ofInt n) (ofInt w)) (ofInt h) * h ≤ n * w * (1 + 1 / 2 ^ 51) := by
  rw [ofInt_exact (by omega) (by omega), ofInt_exact (by omega) (by omega), ofInt_exact (by omega) (by omega)]
  have n0 : (0 : ℚ) ≤ n := by exact_mod_cast h0
  have w0 : (0 : ℚ) < w := by exact_mod_cast (by omega : (0 : Int) < w)
  have k0 : (0 : ℚ) < h := by exact_mod_cast (by omega : (0 : Int) < h)
  have nw0 : (0 : ℚ) ≤ n * w := by positivity
  obtain ⟨a1, a2⟩ := rnd_bounds nw0
  have m0 := rnd_nonneg nw0
  unfold div mul
  have hq : (0 : ℚ) ≤ rnd (n * w) / h := by positivity
  obtain ⟨b1, b2⟩ := rnd_bounds hq
  have e : rnd ((n : ℚ) * w) / h * h = rnd (n * w) := div_mul_cancel₀ _ k0.ne'
  constructor
  · calc (n : ℚ) * w * (1 - 1 / 2 ^ 51) ≤ n * w * ((1 - 1 / 2 ^ 53) * (1 - 1 / 2 ^ 53)) := mul_le_mul_of_nonneg_left (by norm_num) nw0
      _ = n * w * (1 - 1 / 2 ^ 53) * (1 - 1 / 2 ^ 53) := by ring
      _ ≤ rnd (n * w) * (1 - 1 / 2 ^ 53) := mul_le_mul_of_nonneg_right a1 (by norm_num)
      _ = rnd (n * w) / h * (1 - 1 / 2 ^ 53) * h := by rw [mul_right_comm, e]
      _ ≤ _ := mul_le_mul_of_nonneg_right b1 k0.le
  · calc rnd (rnd (n * w) / h) * h ≤ rnd (n * w) / h * (1 + 1 / 2 ^ 53) * h := mul_le_mul_of_nonneg_right b2 k0.le
      _ = rnd (n * w) * (1 + 1 / 2 ^ 53) := by rw [mul_right_comm, e]
      _ ≤ n * w * (1 + 1 / 2 ^ 53) * (1 + 1 / 2 ^ 53) := mul_le_mul_of_nonneg_right a2 (by norm_num)
      _ = n * w * ((1 + 1 / 2 ^ 53) * (1 + 1 / 2 ^ 53)) := by ring
      _ ≤ _ := mul_le_mul_of_nonneg_left (by norm_num) nw0

end

/-- `int(math.Max(1.0, math.Floor(x+0.5)))`. -/
def autoSide (x : ℚ) : Int := toInt (max 1 ((rnd (x + 1 / 2)).floor : Rat))

theorem autoSide_eq (x : ℚ) : autoSide x = max 1 (rnd (x + 1 / 2)).floor := by
  unfold autoSide
  have : (max 1 (((rnd (x + 1 / 2)).floor : Int) : ℚ)) = ((max 1 (rnd (x + 1 / 2)).floor : Int) : ℚ) := by push_cast; rfl
  rw [this, toInt_int]

theorem autoSide_pos (x : ℚ) : 1 ≤ autoSide x := by rw [autoSide_eq]; omega

theorem autoSide_le {x : ℚ} {m : Int} (hm : 1 ≤ m) (hm' : m ≤ 2 ^ 40) (h : x ≤ m * (1 + 1 / 2 ^ 51)) : autoSide x ≤ m := by
  rw [autoSide_eq]
  have m0 : (0 : ℚ) < m := by exact_mod_cast (by omega : (0 : Int) < m)
  have m1 : (m : ℚ) ≤ 2 ^ 40 := by exact_mod_cast hm'
  have h1 : rnd (x + 1 / 2) ≤ rnd (m * (1 + 1 / 2 ^ 51) + 1 / 2) := rnd_mono (by linarith)
  have h2 := (rnd_bounds (q := m * (1 + 1 / 2 ^ 51) + 1 / 2) (by positivity)).2
  have h3 : rnd (x + 1 / 2) < ((m + 1 : Int) : ℚ) := by
    push_cast
    norm_num at m1 h2 ⊢
    linarith
  have := Rat.floor_le (rnd (x + 1 / 2))
  have : ((rnd (x + 1 / 2)).floor : ℚ) < ((m + 1 : Int) : ℚ) := by linarith
  have : (rnd (x + 1 / 2)).floor < m + 1 := by exact_mod_cast this
  omega

theorem resizeSize_eq (w h nw nh : Int) : resizeSize w h nw nh =
    if nw < 0 ∨ nh < 0 then (0, 0)
    else if nw = 0 ∧ nh = 0 then (0, 0)
    else if w ≤ 0 ∨ h ≤ 0 then (0, 0)
    else if nw = 0 then (autoSide (div (mul (ofInt nh) (ofInt w)) (ofInt h)), nh)
    else if nh = 0 then (nw, autoSide (div (mul (ofInt nw) (ofInt h)) (ofInt w)))
    else (nw, nh) := rfl

section
variable {w h : Int} (hw : 1 ≤ w) (hw' : w ≤ 2 ^ 31) (hh : 1 ≤ h) (hh' : h ≤ 2 ^ 31)
include hw hw' hh hh'

theorem auto_le {n m : Int} (h0 : 0 ≤ n) (hn : n ≤ 2 ^ 31) (hm : 1 ≤ m) (hm' : m ≤ 2 ^ 40) (hle : n * w ≤ m * h) :
    autoSide (div (mul (ofInt n) (ofInt w)) (ofInt h)) ≤ m := by
  apply autoSide_le hm hm'
  have k0 : (0 : ℚ) < h := by exact_mod_cast (by omega : (0 : Int) < h)
  have hle' : (n : ℚ) * w ≤ m * h := by exact_mod_cast hle
  apply le_of_mul_le_mul_right _ k0
  calc _ ≤ (n : ℚ) * w * (1 + 1 / 2 ^ 51) := (auto_near hw hw' hh hh' h0 hn).2
    _ ≤ m * h * (1 + 1 / 2 ^ 51) := mul_le_mul_of_nonneg_right hle' (by norm_num)
    _ = _ := by ring

/-- `imaging.Resize` to sides that are not larger does not enlarge. -/
theorem resize_le {nw nh : Int} (h1 : nw ≤ w) (h2 : nh ≤ h) : (resizeSize w h nw nh).1 ≤ w ∧ (resizeSize w h nw nh).2 ≤ h := by
  rw [resizeSize_eq]
  split
  · exact ⟨by show (0 : Int) ≤ w; omega, by show (0 : Int) ≤ h; omega⟩
  · split
    · exact ⟨by show (0 : Int) ≤ w; omega, by show (0 : Int) ≤ h; omega⟩
    · split
      · exact ⟨by show (0 : Int) ≤ w; omega, by show (0 : Int) ≤ h; omega⟩
      · split
        · refine ⟨auto_le hw hw' hh hh' (by omega) (by omega) hw (by omega) ?_, h2⟩
          nlinarith
        · split
          · refine ⟨h1, auto_le hh hh' hw hw' (by omega) (by omega) hh (by omega) ?_⟩
            nlinarith
          · exact ⟨h1, h2⟩

omit hw hw' hh hh' in
/-- `imaging.Resize` makes an image, if it is given one, and a side. -/
theorem resize_pos {nw nh : Int} (hw : 1 ≤ w) (hh : 1 ≤ h) (h1 : 0 ≤ nw) (h2 : 0 ≤ nh) (h3 : 1 ≤ nw ∨ 1 ≤ nh) :
    1 ≤ (resizeSize w h nw nh).1 ∧ 1 ≤ (resizeSize w h nw nh).2 := by
  rw [resizeSize_eq, if_neg (by omega), if_neg (by omega), if_neg (by omega)]
  split
  · exact ⟨autoSide_pos _, by show 1 ≤ nh; omega⟩
  · split
    · exact ⟨by show 1 ≤ nw; omega, autoSide_pos _⟩
    · exact ⟨by show 1 ≤ nw; omega, by show 1 ≤ nh; omega⟩

theorem min_pos {nw nh : Int} (h1 : 0 ≤ nw) (h2 : 0 ≤ nh) :
    (0 ≤ (getMinAndkeepRatio w h nw nh).1 ∧ 0 ≤ (getMinAndkeepRatio w h nw nh).2) ∧ (1 ≤ (getMinAndkeepRatio w h nw nh).1 ∨ 1 ≤ (getMinAndkeepRatio w h nw nh).2) := by
  unfold getMinAndkeepRatio
  simp only
  have ha : 1 ≤ (if nw = 0 then w else nw) := by split <;> omega
  have hb : 1 ≤ (if nh = 0 then h else nh) := by split <;> omega
  generalize (if nw = 0 then w else nw) = a at *
  generalize (if nh = 0 then h else nh) = b at *
  have m : b ≤ h → 0 ≤ toInt (mul (ofInt b) (div (ofInt w) (ofInt h))) := fun hle => mulr_nonneg hw hw' hh hh' (by omega) (by omega)
  have d : a ≤ w → 0 ≤ toInt (div (ofInt a) (div (ofInt w) (ofInt h))) := fun hle => divr_nonneg hw hw' hh hh' (by omega) (by omega)
  split
  · refine ⟨⟨?_, ?_⟩, .inl ?_⟩ <;> simp only <;> omega
  · split
    · split
      · exact ⟨⟨m (by omega), by show 0 ≤ b; omega⟩, .inr hb⟩
      · exact ⟨⟨by show 0 ≤ a; omega, d (by omega)⟩, .inl ha⟩
    · split
      · exact ⟨⟨m (by omega), by show 0 ≤ b; omega⟩, .inr hb⟩
      · exact ⟨⟨by show 0 ≤ a; omega, d (by omega)⟩, .inl ha⟩

theorem max_pos {nw nh : Int} (h1 : 0 ≤ nw) (h2 : 0 ≤ nh) :
    (0 ≤ (getMaxAndkeepRatio w h nw nh).1 ∧ 0 ≤ (getMaxAndkeepRatio w h nw nh).2) ∧ (1 ≤ (getMaxAndkeepRatio w h nw nh).1 ∨ 1 ≤ (getMaxAndkeepRatio w h nw nh).2) := by
  unfold getMaxAndkeepRatio
  simp only
  have ha : 1 ≤ (if nw = 0 then w else nw) := by split <;> omega
  have hb : 1 ≤ (if nh = 0 then h else nh) := by split <;> omega
  generalize (if nw = 0 then w else nw) = a at *
  generalize (if nh = 0 then h else nh) = b at *
  split
  · refine ⟨⟨?_, ?_⟩, .inl ?_⟩ <;> simp only <;> omega
  · split
    · split
      · exact ⟨⟨by show 0 ≤ a; omega, divr_nonneg hw hw' hh hh' (by omega) (by omega)⟩, .inl ha⟩
      · exact ⟨⟨mulr_nonneg hw hw' hh hh' (by omega) (by omega), by show 0 ≤ b; omega⟩, .inr hb⟩
    · refine ⟨⟨?_, ?_⟩, .inl ?_⟩ <;> simp only <;> omega

end

end Gofer.Image
